{"id": "C01", "title": "QubitBasis bit laws", "statement": "QubitBasis.set_bit(p,v) followed by get_bit(q) returns v when q=p and the old bit otherwise; flip_bit(p) inverts exactly bit p and is its own inverse; index() of the result stays inside the same power-of-two register.", "quantifier": "every 64-bit basis index and every bit positions p,q < 64", "why_tests_cant": "Tests sample a handful of indices; the law is over all 2^64 words and all position pairs and rests on a branch-free mask trick (-val ^ state) & mask.", "anchors": ["src/qforte/qubit_basis.h: QubitBasis::get_bit, set_bit, flip_bit, index"]}
{"id": "C02", "title": "Gate matrices are unitary", "statement": "Every gate that qforte.gate(type,target,control,parameter) accepts has a unitary matrix (on its 1- or 2-qubit block); every other type/target/control combination is rejected with an exception.", "quantifier": "every gate type string, every target/control, every real parameter", "why_tests_cant": "Tests sample a handful of angles; unitarity must hold for every real parameter.", "anchors": ["src/qforte/make_gate.cc: make_gate"]}
{"id": "C03", "title": "Parameter normalisation is invisible", "statement": "The parameter stored by a parametrised gate lies within half a period of zero, and the gate's matrix is the one of the un-normalised angle.", "quantifier": "every real parameter of R, Rx, Ry, Rz, cR, cRz, A", "why_tests_cant": "A real-valued quantifier; tests cannot cover it.", "anchors": ["src/qforte/make_gate.cc: normalize_angle, make_gate"]}
{"id": "C04", "title": "Gate adjoint is the inverse", "statement": "gate.adjoint() has the conjugate-transposed matrix, same target/control, the label/parameter of the returned gate describe exactly that matrix (so it can be rebuilt), and applying a gate then its adjoint restores every state.", "quantifier": "every gate obtainable from qforte.gate and repeated adjoint", "why_tests_cant": "Quantifies over all real parameters, qubits and states and over arbitrarily nested adjoints.", "anchors": ["src/qforte/gate.cc: Gate::adjoint"]}
{"id": "C05", "title": "apply_gate_safe applies the gate matrix", "statement": "apply_gate_safe replaces the state by (gate matrix on target/control, identity elsewhere) times the state, up to dropping matrix elements of modulus <= 1e-16; scratch storage is left zero so a later call is unaffected by history.", "quantifier": "every number of qubits, every state, every gate, every history of calls", "why_tests_cant": "All register sizes, states and call histories.", "anchors": ["src/qforte/computer.cc: apply_gate_safe, apply_1qubit_gate_safe, apply_2qubit_gate_safe"]}
{"id": "C06", "title": "Fast one-qubit kernel is correct", "statement": "apply_gate for a one-qubit gate yields the same state as the mathematical gate for every gate built by the API, including the diagonal and anti-diagonal special cases, touching each amplitude exactly once and no memory outside the state vector.", "quantifier": "every register size, target < nqubit, every 2x2 matrix satisfying the case conditions, every state", "why_tests_cant": "Block-strided loops over 2^n amplitudes for all n and t; tests use a few n.", "anchors": ["src/qforte/computer.cc: apply_1qubit_gate"]}
{"id": "C07", "title": "Fast two-qubit kernel is correct", "statement": "apply_gate for a two-qubit gate (target<control, control<target, controlled and general) yields the same state as the mathematical gate and touches only in-range memory.", "quantifier": "every register size, every distinct target/control < nqubit, every 4x4 matrix of the API, every state", "why_tests_cant": "Four hand-unrolled nested block loops for all n, t, c.", "anchors": ["src/qforte/computer.cc: apply_2qubit_gate"]}
{"id": "C08", "title": "apply_gate and apply_gate_safe agree", "statement": "Running any circuit through apply_circuit and through apply_circuit_safe from the same state gives the same state.", "quantifier": "every circuit of API gates, every register that fits it, every state", "why_tests_cant": "All circuits; tests compare a few.", "anchors": ["src/qforte/computer.cc: apply_circuit, apply_circuit_safe"]}
{"id": "C09", "title": "Circuits preserve inner products", "statement": "Applying the same circuit to two computers leaves their inner_product unchanged; in particular the norm of the state is preserved.", "quantifier": "every circuit of API gates, every pair of states", "why_tests_cant": "All circuits and states.", "anchors": ["src/qforte/computer.cc: apply_circuit, dot"]}
{"id": "C10", "title": "Circuit.adjoint undoes a circuit", "statement": "apply_circuit(c) followed by apply_circuit(c.adjoint()) restores the state; adjoint reverses gate order and adjoint().adjoint() acts like the original.", "quantifier": "every circuit, every state", "why_tests_cant": "All circuits.", "anchors": ["src/qforte/circuit.cc: Circuit::adjoint"]}
{"id": "C11", "title": "Circuit editing is list editing", "statement": "insert_gate, remove_gate, replace_gate, swap_gates, insert_circuit, remove_gates, add behave as the corresponding list edits; they throw exactly for the documented out-of-range positions and then leave the circuit unchanged.", "quantifier": "every circuit and every sequence of edits", "why_tests_cant": "Arbitrary edit histories.", "anchors": ["src/qforte/circuit.cc: insert_gate, remove_gate, replace_gate, swap_gates, insert_circuit, remove_gates, add_circuit"]}
{"id": "C12", "title": "set_parameters / get_parameters", "statement": "set_parameters(p) with as many values as parametrised gates makes the k-th parametrised gate equal to the gate rebuilt with p[k] (or leaves it when the stored value is within 1e-12), leaves all other gates alone, and get_parameters returns the stored values in gate order; a wrong count raises.", "quantifier": "every circuit and every parameter vector", "why_tests_cant": "All circuits and all real vectors.", "anchors": ["src/qforte/circuit.cc: set_parameters, set_parameter, get_parameters"]}
{"id": "C13", "title": "num_qubits bounds every gate", "statement": "Circuit/QubitOperator num_qubits is the least n such that every target and control is < n, so a Computer of that size never sees an out-of-range qubit.", "quantifier": "every circuit and operator", "why_tests_cant": "Least upper bound over arbitrary lists.", "anchors": ["src/qforte/circuit.cc: num_qubits", "src/qforte/qubit_operator.cc: num_qubits"]}
{"id": "C14", "title": "Circuit.simplify preserves the circuit's action", "statement": "After simplify(), applying the circuit gives the same state as before for every initial state; the number of gates never grows.", "quantifier": "every circuit of API gates (and their adjoints), every state", "why_tests_cant": "An O(n^2) rewriting pass with 4 simplification cases; only a proof covers all circuits and angles.", "anchors": ["src/qforte/circuit.cc: Circuit::simplify", "src/qforte/gate.cc: evaluate_gate_interaction"]}
{"id": "C15", "title": "evaluate_gate_interaction is sound", "statement": "When it reports that two gates commute, their actions commute on every state; it is insensitive to argument order for the commute flag.", "quantifier": "every pair of API gates on any qubits", "why_tests_cant": "All overlaps of targets/controls and all angles.", "anchors": ["src/qforte/gate.cc: evaluate_gate_interaction"]}
{"id": "C16", "title": "get_num_cnots", "statement": "get_num_cnots counts 1 per (anti)CNOT gate and 3 per A/SWAP gate, is additive under concatenation and invariant under adjoint.", "quantifier": "every circuit", "why_tests_cant": "All circuits.", "anchors": ["src/qforte/circuit.cc: get_num_cnots"]}
{"id": "C17", "title": "Gate/Circuit equality", "statement": "Gate == is reflexive and symmetric and, on gates made by qforte.gate without parameters, implies equal matrices; Circuit == is gate-wise.", "quantifier": "every pair of gates / circuits", "why_tests_cant": "All pairs.", "anchors": ["src/qforte/gate.cc: operator==, operator<"]}
{"id": "C18", "title": "canonicalize_pauli_circuit is sound", "statement": "The returned prefactor times the canonical circuit equals, as an operator product read left to right, the original Pauli circuit; the result has at most one gate per qubit, sorted by qubit; prefactor is in {1,-1,i,-i}; non-Pauli circuits raise.", "quantifier": "every circuit of X/Y/Z gates", "why_tests_cant": "All Pauli words.", "anchors": ["src/qforte/circuit.cc: canonicalize_pauli_circuit"]}
{"id": "C19", "title": "canonicalize agrees with execution", "statement": "For a Pauli circuit with at most one gate per qubit, prefactor times applying the canonical circuit equals applying the original; with repeated qubits the phase is that of the reversed order (complex conjugate).", "quantifier": "every Pauli circuit, every state", "why_tests_cant": "All words.", "anchors": ["src/qforte/circuit.cc: canonicalize_pauli_circuit", "src/qforte/computer.cc: apply_circuit"]}
{"id": "C20", "title": "QubitOperator.simplify preserves the operator", "statement": "simplify combines like terms: the linear operator represented is unchanged except for dropped terms whose total coefficient has modulus <= 1e-12; the result has pairwise distinct canonical strings in sorted order; simplify is idempotent.", "quantifier": "every QubitOperator of Pauli terms", "why_tests_cant": "All operators.", "anchors": ["src/qforte/qubit_operator.cc: canonical_order, simplify"]}
{"id": "C21", "title": "operator_product is the operator product", "statement": "operator_product(R) turns L into the matrix product L*R (for all simplify flags), up to dropped terms of modulus <= 1e-12.", "quantifier": "every pair of QubitOperators of Pauli terms, all flag values", "why_tests_cant": "All operators.", "anchors": ["src/qforte/qubit_operator.cc: operator_product"]}
{"id": "C22", "title": "QubitOperator linear bookkeeping", "statement": "add_term/add_op add operators, mult_coeffs scales, set_coeffs replaces coefficients iff the lengths match and otherwise raises leaving the operator unchanged.", "quantifier": "every operator, every coefficient vector", "why_tests_cant": "All operators.", "anchors": ["src/qforte/qubit_operator.cc: add_term, add_op, set_coeffs, mult_coeffs"]}
{"id": "C23", "title": "check_op_equivalence decides equality of operators", "statement": "check_op_equivalence(qo, reorder=True) is true whenever the two operators have the same combined coefficients up to 1e-10 on the same strings, independently of the order and splitting of terms; when true the operators differ coefficient-wise by at most 1e-10.", "quantifier": "every pair of Pauli operators", "why_tests_cant": "All pairs, all term orders.", "anchors": ["src/qforte/qubit_operator.cc: check_op_equivalence, order_terms"]}
{"id": "C24", "title": "apply_operator is the linear combination", "statement": "apply_operator(op) maps the state to sum_k c_k * circuit_k(state), is linear in the operator, and leaves scratch storage clean.", "quantifier": "every operator, every state", "why_tests_cant": "All operators and states.", "anchors": ["src/qforte/computer.cc: apply_operator, apply_constant"]}
{"id": "C25", "title": "sparse_matrix of gate and circuit", "statement": "gate.sparse_matrix(n) and circuit.sparse_matrix(n) contain exactly the matrix elements of the gate/circuit on n qubits (elements of modulus below the documented thresholds omitted); out-of-range qubits raise.", "quantifier": "every n, every gate/circuit on n qubits", "why_tests_cant": "All n and circuits.", "anchors": ["src/qforte/gate.cc: Gate::sparse_matrix", "src/qforte/circuit.cc: Circuit::sparse_matrix", "src/qforte/sparse_tensor.cc"]}
{"id": "C26", "title": "apply_sparse_matrix agrees with apply_operator", "statement": "Computer.apply_sparse_matrix(op.sparse_matrix(n)) gives the same state as apply_operator(op).", "quantifier": "every non-empty operator and state, absent sub-threshold elements", "why_tests_cant": "All operators.", "anchors": ["src/qforte/computer.cc: apply_sparse_matrix", "src/qforte/qubit_operator.cc: sparse_matrix"]}
{"id": "C27", "title": "apply_matrix", "statement": "Computer.apply_matrix(M) maps the state v to M v.", "quantifier": "every matrix and state", "why_tests_cant": "All matrices; tests use real ones.", "anchors": ["src/qforte/computer.cc: apply_matrix"]}
{"id": "C28", "title": "Expectation values leave the state alone", "statement": "direct_op_exp_val, direct_circ_exp_val, direct_oppl_exp_val*, perfect_measure_circuit, measure_circuit and measure_readouts return with the state unchanged.", "quantifier": "every state, operator, circuit and every random outcome", "why_tests_cant": "All states and random draws.", "anchors": ["src/qforte/computer.cc"]}
{"id": "C29", "title": "direct_op_exp_val is <psi|O|psi>", "statement": "direct_op_exp_val(op) (serial build) equals the inner product of the state with op applied to it; direct_circ_exp_val likewise; pool versions return coefficient times that value in pool order.", "quantifier": "every state, every operator", "why_tests_cant": "All states.", "anchors": ["src/qforte/computer.cc: direct_op_exp_val, direct_circ_exp_val, direct_oppl_exp_val, direct_idxd_oppl_exp_val, direct_oppl_exp_val_w_mults"]}
{"id": "C30", "title": "direct_pauli_circ_exp_val is <psi|P|psi>", "statement": "The blocked Pauli expectation value equals the inner product of the state with the Pauli string applied to it, for any number of blocks (and any order of summing them).", "quantifier": "every Pauli string with distinct qubits, every state", "why_tests_cant": "All strings, all states, all block schedules.", "anchors": ["src/qforte/computer.cc: direct_pauli_circ_exp_val, get_pauli_permuted_idx"]}
{"id": "C31", "title": "perfect_measure_circuit is <psi|P|psi>", "statement": "perfect_measure_circuit(P) equals the expectation value of the Pauli string P.", "quantifier": "every Pauli string of X,Y,Z with distinct qubits and every state", "why_tests_cant": "All strings and states.", "anchors": ["src/qforte/computer.cc: perfect_measure_circuit"]}
{"id": "C32", "title": "Measurement outcomes", "statement": "Every value returned by measure_circuit is +1 or -1, every readout bit is 0 or 1, read from a basis state of non-zero probability in the rotated basis; the lists have n_measurements entries.", "quantifier": "every state, circuit and every sequence of random draws", "why_tests_cant": "Random draws cannot be exhausted by tests.", "anchors": ["src/qforte/computer.cc: measure_circuit, measure_readouts, measure_z_readouts_fast"]}
{"id": "C33", "title": "direct_gate_exp_val", "statement": "direct_gate_exp_val(g) returns <psi|g|psi> and leaves the state unchanged.", "quantifier": "every gate and state", "why_tests_cant": "All states.", "anchors": ["src/qforte/computer.cc: direct_gate_exp_val"]}
{"id": "C34", "title": "Permutation parity", "statement": "The sign used when reordering ladder operators is the sign of the sorting permutation.", "quantifier": "every permutation of any length", "why_tests_cant": "All permutations.", "anchors": ["src/qforte/sq_operator.cc: permutation_phase, canonicalize_helper"]}
{"id": "C35", "title": "SQOperator canonical ordering and simplify preserve the operator", "statement": "canonical_order and simplify leave the represented fermionic operator unchanged (up to dropped coefficients <= 1e-12), indices descending, like terms merged, no duplicates.", "quantifier": "every SQOperator", "why_tests_cant": "All operators.", "anchors": ["src/qforte/sq_operator.cc: canonical_order, simplify"]}
{"id": "C36", "title": "Jordan-Wigner transform represents the fermionic operator", "statement": "jw_transform() acts on every determinant exactly as the second-quantised operator (creation/annihilation with fermionic signs).", "quantifier": "every SQOperator, every determinant", "why_tests_cant": "All operators and determinants.", "anchors": ["src/qforte/sq_operator.cc: jw_transform, jw_helper"]}
{"id": "C37", "title": "Jordan-Wigner anticommutation", "statement": "The qubit images of ladder operators satisfy the canonical anticommutation relations.", "quantifier": "all orbital index pairs", "why_tests_cant": "All index pairs, all register sizes.", "anchors": ["src/qforte/sq_operator.cc: jw_helper"]}
{"id": "C38", "title": "exponentiate_pauli_string is the exponential", "statement": "The circuit (times returned phase) equals exp(coefficient * P) for a Pauli string P and imaginary coefficient.", "quantifier": "every Pauli string on distinct qubits, every imaginary coefficient, every state", "why_tests_cant": "All strings and real angles.", "anchors": ["src/qforte/utils/exponentiate.py: exponentiate_pauli_string"]}
{"id": "C39", "title": "controlled exponentiation", "statement": "With Use_cRz the circuit acts as the exponential when the ancilla is |1> and as the identity when it is |0> (reversed with Use_open_cRz).", "quantifier": "every Pauli string not touching the ancilla, every coefficient, every state", "why_tests_cant": "All strings.", "anchors": ["src/qforte/utils/exponentiate.py: exponentiate_pauli_string"]}
{"id": "C40", "title": "trotterize is the product formula", "statement": "trotterize(op, factor, N) is a circuit and phase equal to (prod_k exp(factor c_k P_k / N))^N; unsupported orders raise.", "quantifier": "every anti-Hermitian Pauli operator, every N >= 1", "why_tests_cant": "All operators and N.", "anchors": ["src/qforte/utils/trotterization.py: trotterize, trotterize_w_cRz"]}
{"id": "C41", "title": "QFT circuit", "statement": "qft_circuit(na,nb,'forward') maps |x> on the block to the discrete Fourier superposition; 'reverse' is its inverse.", "quantifier": "all na <= nb, every state", "why_tests_cant": "All register widths.", "anchors": ["src/qforte/utils/qft.py: qft_circuit"]}
{"id": "C42", "title": "rev_qft undoes qft", "statement": "rev_qft(qft(state)) restores the state.", "quantifier": "all na <= nb, every state", "why_tests_cant": "All widths and states.", "anchors": ["src/qforte/utils/qft.py: qft, rev_qft"]}
{"id": "C43", "title": "Reference preparation", "statement": "Applying build_refprep(ref) to a fresh Computer yields the basis state with index ref_to_basis_idx(ref); integer_to_ref and ref_to_basis_idx are mutually inverse.", "quantifier": "every occupation list", "why_tests_cant": "All occupation lists.", "anchors": ["src/qforte/utils/state_prep.py: build_refprep, ref_to_basis_idx, integer_to_ref"]}
{"id": "C44", "title": "Spin-equivalent determinants", "statement": "build_eq_dets(ref) lists without repetition exactly the determinants with the same doubly/singly/un-occupied spatial orbitals and the same |Sz|; open_shell(ref) says whether some spatial orbital holds exactly one electron.", "quantifier": "every even-length occupation list", "why_tests_cant": "Worklist closure for arbitrary lengths.", "anchors": ["src/qforte/utils/state_prep.py: build_eq_dets, flip_spin, correct_spin, open_shell"]}
{"id": "C45", "title": "find_irrep is a homomorphism", "statement": "find_irrep is independent of index order, cancels repeated orbitals and of concatenated lists is the XOR of the parts.", "quantifier": "all index lists and irrep tables", "why_tests_cant": "All lists.", "anchors": ["src/qforte/find_irrep.cc: find_irrep"]}
{"id": "C46", "title": "complete_qubit pool", "statement": "QubitOpPool.fill_pool('complete_qubit', n) contains each of the 4^n Pauli strings exactly once; 'cqoy' exactly those with an odd number of Y.", "quantifier": "every n", "why_tests_cant": "All n.", "anchors": ["src/qforte/qubit_op_pool.cc: fill_pool, to_base4, pauli_idx_str"]}
{"id": "C47", "title": "Pool joins", "statement": "join_op_from_right/left, join_as_commutator and square replace every pool operator by the product/commutator/pairwise products in order, coefficients as documented.", "quantifier": "every pool and operator", "why_tests_cant": "All pools.", "anchors": ["src/qforte/qubit_op_pool.cc: join_op_from_right, join_op_from_left, join_as_commutator, square"]}
{"id": "C48", "title": "UCC pools are anti-Hermitian and symmetry preserving", "statement": "Every operator of the S..SDTQPH pools is an anti-Hermitian excitation that conserves particle number and Sz, of rank between 1 and the requested one, and of the totally symmetric irrep.", "quantifier": "every reference of any even length", "why_tests_cant": "All references.", "anchors": ["src/qforte/sq_op_pool.cc: fill_pool, set_orb_spaces"]}
{"id": "C49", "title": "UCC pool completeness", "statement": "For every reference the pool contains, exactly once, every number- and Sz-conserving excitation out of the reference up to the requested rank.", "quantifier": "every reference", "why_tests_cant": "Combinatorial enumeration for all sizes.", "anchors": ["src/qforte/sq_op_pool.cc: fill_pool"]}
{"id": "C50", "title": "Reference integer", "statement": "set_orb_spaces encodes the reference as sum ref[i]*2^i and the occupied/virtual alpha/beta counts partition the orbitals.", "quantifier": "every reference list", "why_tests_cant": "Integer width effects appear only at sizes tests do not reach.", "anchors": ["src/qforte/sq_op_pool.cc: set_orb_spaces"]}
{"id": "C51", "title": "pauli_condense", "statement": "pauli_condense returns, term by term, the same operator with at most one letter per qubit in increasing order; combine_like_terms sums equal words and drops only totals of at most 1e-10; join_organizers is the operator product and join_H_Am_organizers the commutator.", "quantifier": "every Pauli word", "why_tests_cant": "All words.", "anchors": ["src/qforte/utils/transforms.py: pauli_condense, combine_like_terms, join_organizers, join_H_Am_organizers"]}
{"id": "C52", "title": "python and C++ Jordan-Wigner agree", "statement": "get_single_term_jw_organizer represents the same operator as jw_transform of the same term; get_jw_organizer represents the sum of the terms; get_ucc_jw_organizer represents sum amp (T - T^dagger), which is anti-Hermitian.", "quantifier": "every term with as many creators as annihilators", "why_tests_cant": "All terms.", "anchors": ["src/qforte/utils/transforms.py: get_single_term_jw_organizer, get_jw_organizer, get_ucc_jw_organizer"]}
{"id": "C53", "title": "organizer round trip", "statement": "circuit_to_organizer(organizer_to_circuit(o)) returns o for every organizer of one-qubit parameterless gates, organizer_to_circuit(circuit_to_organizer(A)) returns A, the operator is the one the organizer denotes, and any other letter raises.", "quantifier": "every organizer", "why_tests_cant": "All organizers.", "anchors": ["src/qforte/utils/transforms.py: organizer_to_circuit, circuit_to_organizer"]}
{"id": "C54", "title": "Parity-check kernel", "statement": "find_parity_check_matrix_kernel returns a basis of the kernel of the parity-check matrix: every row is annihilated, rows are independent, and every kernel vector is a combination.", "quantifier": "every binary matrix", "why_tests_cant": "All matrices.", "anchors": ["src/qforte/utils/qubit_tapering.py: find_parity_check_matrix_kernel"]}
{"id": "C55", "title": "Commutation matrix", "statement": "find_commutation_matrix entry (i,j) is 0 iff the Pauli strings encoded by rows i and j commute, including through uint8 wrap-around.", "quantifier": "every list of binary vectors of any length", "why_tests_cant": "uint8 overflow only beyond 255 qubits.", "anchors": ["src/qforte/utils/qubit_tapering.py: find_commutation_matrix, construct_parity_check_matrix"]}
{"id": "C56", "title": "Symmetry generators commute with the Hamiltonian", "statement": "Every row produced by the kernel/orthogonalisation/Abelian-subgroup pipeline encodes a Pauli string commuting with every term of the Hamiltonian, the generators commute pairwise, and the search terminates.", "quantifier": "every Pauli Hamiltonian", "why_tests_cant": "All Hamiltonians.", "anchors": ["src/qforte/utils/qubit_tapering.py: find_Z2_symmetries, Symplectic_Gram_Schmidt_Orthogonalization, find_maximal_Abelian_subgroup"]}
{"id": "C57", "title": "taper_reference", "statement": "taper_reference removes exactly the listed positions (descending order) and keeps the order of the rest.", "quantifier": "every reference and descending index list", "why_tests_cant": "All lists.", "anchors": ["src/qforte/utils/qubit_tapering.py: taper_reference"]}
{"id": "C58", "title": "Toffoli and Fredkin", "statement": "Toffoli(i,j,k) acts as the doubly controlled NOT and Fredkin(i,j,k) as the controlled SWAP on every state.", "quantifier": "all distinct qubits and all states", "why_tests_cant": "All placements.", "anchors": ["src/qforte/helper/advance_gates_helper.py: Toffoli, Fredkin"]}
{"id": "C59", "title": "compute_operator_matrix_element", "statement": "Returns <0|U_bra^dagger O U_ket|0>.", "quantifier": "all circuits and operators", "why_tests_cant": "All circuits.", "anchors": ["src/qforte/utils/compute_matrix_element.py"]}
{"id": "C60", "title": "Computer lifecycle", "statement": "A new or reset Computer holds |0..0>, null_state is zero, set_state gives exactly the listed amplitudes (last wins), sizes stay 2^n under every operation, and op counters count applied gates.", "quantifier": "every history of operations", "why_tests_cant": "All histories.", "anchors": ["src/qforte/computer.cc: Computer, reset, null_state, set_state"]}
{"id": "C61", "title": "Compact excitation circuits", "statement": "For non-empty index lists of equal length with no repeated or shared index, compact_excitation_circuit(theta, creation, annihilation, qubit_excitations) returns a circuit of constructible gates on the qubits up to the largest index that acts on every state exactly as exp(s theta (t - t^dagger)), t = the product of the creators in the given order followed by the annihilators: s = 1 for qubit excitations in any order and for fermionic lists that are both decreasing (the form the operator pools supply) or both increasing; in general s = (-1)^(number of ascending pairs in the two lists), so mixed orders give the inverse rotation. Generalised doubles sharing one index g are exact for g+p+ g r, p+g+ r g (g not between p and r) and p+g+ g r (g between), and for qubit excitations in all orders; for g+p+ r g with another orbital between p and r the fermionic circuit is not that exponential. Lists of different lengths, two shared indices or no index raise.", "quantifier": "every real theta, every rank, every index lists, every state of any number of qubits", "why_tests_cant": "All ranks, angles and states.", "anchors": ["src/qforte/utils/compact_excitation_circuits.py"]}
{"id": "C62", "title": "Spin operators", "statement": "total_spin_z, total_spin_raising/lowering and total_spin_squared represent Sz, S+, S- and S^2.", "quantifier": "every number of qubits", "why_tests_cant": "All register sizes.", "anchors": ["src/qforte/utils/spin_operators.py"]}
{"id": "C63", "title": "GSD pool: every generalised excitation exactly once", "statement": "fill_pool(\"GSD\") never fails on an even number of spin orbitals, and adds, with weight 1, operators E - E^dagger for generalised single and double excitations E that conserve Sz and the spatial symmetry, and for each such E exactly one of E - E^dagger and its negative. All are anti-Hermitian and conserve particle number and Sz. A pool name that is not one of the eight known ones raises.", "quantifier": "every number of orbitals, every irrep assignment", "why_tests_cant": "All register sizes and symmetry labellings; completeness and non-duplication of a nested loop with a running duplicate check.", "anchors": ["src/qforte/sq_op_pool.cc:SQOpPool::fill_pool"]}
{"id": "C64", "title": "sa_SD pool: spin-adapted singles and doubles", "statement": "fill_pool(\"sa_SD\") on a closed-shell reference adds exactly the normalised spin-adapted singles and doubles from the doubly occupied to the virtual spatial orbitals of allowed symmetry, in loop order, skipping the ones that vanish; each is anti-Hermitian, commutes with N, Sz, S+ and S-, and has unit norm. On an open-shell reference it raises.", "quantifier": "every number of occupied and virtual spatial orbitals, every irrep assignment", "why_tests_cant": "All register sizes; commuting with S+ and S- is an operator identity.", "anchors": ["src/qforte/sq_op_pool.cc:SQOpPool::fill_pool"]}
{"id": "C65", "title": "fermop_to_sq_excitation", "statement": "fermop_to_sq_excitation accepts exactly the normal-ordered particle-number-conserving terms (raising ValueError otherwise) and returns index tuples denoting the same operator.", "quantifier": "every list of tuples of ladder operators", "why_tests_cant": "All orders of creators and annihilators.", "anchors": ["src/qforte/utils/transforms.py: fermop_to_sq_excitation"]}
{"id": "C66", "title": "Tapering unitary", "statement": "The unitary returned by find_Z2_symmetries is Hermitian, squares to the identity and conjugates each symmetry generator into the X gate on its tapered qubit.", "quantifier": "all qubit Hamiltonians made of Pauli strings without a symmetry made of X gates only and with fewer than 80 generators; both tapering orders", "why_tests_cant": "the number of generators, the group structure and the cancellations in the product of factors depend on the Hamiltonian", "anchors": ["src/qforte/utils/qubit_tapering.py:find_Z2_symmetries"]}
{"id": "C67", "title": "taper_operator", "statement": "taper_operator returns an operator on the remaining qubits whose action, through the tapering unitary, is that of the given operator on the symmetry sector selected by the signs (up to the terms under the documented thresholds); every state of the sector is represented exactly once; bad signs raise ValueError.", "quantifier": "all operators commuting with the generators, all sign choices, all states", "why_tests_cant": "the property is about every state of the sector and every operator commuting with the symmetries", "anchors": ["src/qforte/utils/qubit_tapering.py:taper_operator"]}
{"id": "C69", "title": "Trotterisation is exact for commuting terms", "statement": "trotterize of an operator whose Pauli terms commute pairwise returns, for every Trotter number, a circuit and a phase whose product is exactly the exponential of factor times the operator; in particular, for every excitation E (fermionic or qubit), the Jordan-Wigner transform of E - E^dagger trotterizes to phase 1 and a circuit that is exactly exp(t (E - E^dagger)), on the qubits of the excitation's register.", "quantifier": "all operators with pairwise commuting Pauli terms and imaginary factor*coefficient, all Trotter numbers >= 1; all excitations of rank up to 19, all real amplitudes, all Trotter numbers", "why_tests_cant": "ranges over all excitations, ranks, register sizes, amplitudes and Trotter numbers; equality of operators on all states", "anchors": ["src/qforte/utils/trotterization.py: trotterize", "src/qforte/utils/exponentiate.py: exponentiate_pauli_string", "src/qforte/sq_operator.cc: SQOperator::jw_transform"]}
{"id": "C68", "title": "Pool to qubit operator", "statement": "SQOpPool.get_qubit_operator(\"commuting_grp_lex\") is the concatenation, in pool order, of one group per element: the element's coefficient times the Jordan-Wigner transform of its operator, without the terms of modulus at most 1e-12; \"unique_lex\" is the combined sum of these; the combine_like_terms flag has no effect; any other order raises. get_qubit_op_pool keeps the coefficients and transforms the operators one by one, leaving the pool's own operators simplified.", "quantifier": "all pools of operators without repeated creation/annihilation indices and at most 39 ladder operators per term, both kinds of excitation, both flags, every outcome of the unstable sort", "why_tests_cant": "ranges over all pools, coefficients and sort outcomes", "anchors": ["src/qforte/sq_op_pool.cc: SQOpPool::get_qubit_operator, SQOpPool::get_qubit_op_pool"]}
{"id": "C70", "title": "UCC ansatz circuit", "statement": "ansatz_circuit(amplitudes) of the UCC algorithms is, for a pool of excitations, the ordered product over the selected operators of exp(t_mu kappa_mu / N), the whole repeated N = trotter_number times, up to Pauli terms of modulus at most 1e-12 in the exponents; it is exactly that product when every amplitude is zero or larger than 1e-12*4^rank. build_Uvqc appends it to the state preparation circuit and energy_feval returns the energy <Phi|U(t)^dag H U(t)|Phi> of the resulting state. With compact_excitations the circuit is exactly the product of exp(t_mu kappa_mu) for all amplitudes if no index is both created and annihilated, and energy_feval is the energy of that state when the rotation angles are zero or not within the gate-simplification thresholds.", "quantifier": "all pools of (fermionic or qubit) excitations of rank up to 19, all selections, all amplitudes, all Trotter numbers >= 1, all initial states, state preparation circuits and Hamiltonians of exactly simulated gates, every outcome of the unstable sorts", "why_tests_cant": "ranges over all pools, amplitude vectors, register sizes and sort outcomes; equality of operators", "anchors": ["src/qforte/abc/ansatz.py: UCC.ansatz_circuit", "src/qforte/abc/algorithm.py: AnsatzAlgorithm.build_Uvqc, energy_feval, measure_energy"]}
{"id": "C71", "title": "measure_gradient is the gradient of the energy", "statement": "Entry mu of measure_gradient(params) is the partial derivative of the UCC energy with respect to amplitude mu (pool coefficients 1, trotter_number 1, resolved amplitudes, not sa_SD), with ordinary and with compact circuits; at non-zero amplitudes it is the derivative of the function energy_feval itself. Deviations: energy_feval is constant in an amplitude near zero, so it does not have that derivative there; a pool coefficient z != 1 multiplies the gradient but not the ansatz; with trotter_number 2 the energy can be stationary where an entry of measure_gradient is 1 (the last entry is 2 Re<psi|H kappa|psi> for every Trotter number); for spin-adapted (sa_SD) operators the same holds if the pieces of each operator commute, and fails in general: with the sa_SD pool of two electrons in three orbitals an entry of measure_gradient has the opposite sign of the derivative; with no amplitudes measure_gradient raises IndexError.", "quantifier": "all Hermitian Hamiltonians, pools of excitations, selections and amplitude vectors", "why_tests_cant": "a derivative over a continuum of amplitudes; every ansatz length", "anchors": ["src/qforte/abc/uccvqeabc.py: UCCVQE.measure_gradient"]}
{"id": "C72", "title": "measure_gradient3 is the ADAPT slope", "statement": "Entry m of measure_gradient3() is 2 Re <psi|H z_m K_m|psi> for the ansatz state psi and the Jordan-Wigner transform K_m of pool operator m; for excitations with real coefficients this is <psi|[H, z_m kappa_m]|psi> and the derivative at s = 0 of the energy of exp(s z_m kappa_m) psi.", "quantifier": "all pools, all ansatz circuits of exactly simulated gates, all Hermitian Hamiltonians", "why_tests_cant": "identity over all states, pools and Hamiltonians", "anchors": ["src/qforte/abc/uccvqeabc.py: UCCVQE.measure_gradient3"]}
{"id": "C73", "title": "PQE residuals", "statement": "fill_excited_dets finds for every pool operator kappa_mu the determinant I and the sign s = +-1 with kappa_mu|ref> = s|I>. get_residual_vector(t) then returns <kappa_mu ref|U(t)^dagger H U(t)|Phi> for every pool operator in pool order, U(t) the disentangled UCC operator; it raises ValueError exactly if one of them is not real, which cannot happen for a Hamiltonian with real coefficients and an even number of Y per string and the reference as initial state; spin-adapted pools are refused. initialize_ansatz puts every operator in with amplitude 0. get_res_over_mpdenom divides residual mu by the sum of the energies of the emptied orbitals minus the sum of those of the filled ones.", "quantifier": "all references on at most 64 qubits, all pools of particle-hole excitations, all resolved amplitude vectors, all Hamiltonians", "why_tests_cant": "amplitudes range over a continuum; every reference, pool and Hamiltonian", "anchors": ["src/qforte/ucc/uccnpqe.py: UCCNPQE.fill_excited_dets, get_residual_vector, initialize_ansatz", "src/qforte/abc/ansatz.py: UCC.get_res_over_mpdenom"]}
{"id": "C74", "title": "Penalty Hamiltonian", "statement": "An algorithm constructed with penalty = {operators O_i, eigenvalues e_i, scaling_factors s_i} uses the Hamiltonian H + sum_i s_i (O_i - e_i)^2, up to Pauli terms of modulus at most 1e-12 dropped by simplify, in normal form; the penalty vanishes on common eigenstates with the requested eigenvalues; lists of different lengths, and projective algorithms, are refused with ValueError.", "quantifier": "all Pauli operators H and O_i, any number of penalties, all real e_i and s_i", "why_tests_cant": "identity over all operators and list lengths", "anchors": ["src/qforte/abc/algorithm.py: AnsatzAlgorithm.__init__"]}
{"id": "C75", "title": "Jacobi solver", "statement": "If jacobi_solver returns, it made k steps with 1 <= k <= opt_maxiter, _Egs is energy_feval of the final amplitudes, it stopped early only because the norm of the residual evaluated in the last step (at the amplitudes before the last update) was below opt_thresh, and it never continued after such a residual. Without DIIS each step adds the preconditioned residual; with DIIS the new amplitudes are the combination of the stored iterates (all but the oldest) with the lstsq coefficients, which add up to 1 for an exact solve; at most diis_max_dim iterates are kept by each call dropping one. With opt_maxiter = 0 it raises UnboundLocalError; started at an exact solution with DIIS on, it fails instead of converging.", "quantifier": "all energy, residual and preconditioner functions, all starting points, thresholds, iteration limits and lstsq results", "why_tests_cant": "every function and history", "anchors": ["src/qforte/maths/optimizer.py: jacobi_solver, diis"]}
{"id": "C76", "title": "Generalized eigenvalue solver", "statement": "canonical_geig_solve(S, H) returns pairs with H C = S C e, provided eig diagonalizes S with orthonormal eigenvectors and the reduced matrix; with sort_ret_vals the eigenvalues are the same in non-decreasing order and the eigenvectors correspond. Found false: (a) with sort_ret_vals the eigenvectors are wrong whenever sorting permutes anything (the columns of X are permuted too); (b) when small eigenvalues of S are dropped, the columns of U are not filtered along, so unless the dropped ones come last, wrong directions are kept.", "quantifier": "all sizes, all matrices S and H, all results of eig", "why_tests_cant": "all matrices; the bugs only appear for particular orders of the eigenvalues returned by LAPACK", "anchors": ["src/qforte/maths/eigsolve.py: canonical_geig_solve", "src/qforte/helper/idx_org.py: sorted_largest_idxs"]}
{"id": "C77", "title": "Quantum Krylov matrices", "statement": "SRQK.build_qk_mats_fast returns S[m][n] = <psi_m|psi_n> and Hbar[m][n] = <psi_m|H|psi_n> for the states psi_m obtained from the prepared reference by the first-order Trotter product of exp(-i m dt c_l P_l / N), N times; when the terms of H commute psi_m = exp(-i m dt H) psi_0. MRSQK returns the same blocks for every pair of (non-vacuum) reference determinants at row reference*nstates + m. NTSRQK returns the overlaps and Hamiltonian elements of exp(-i m dt/s H) psi_0 where s = nstates - 1. Found false: the documented times m dt for NTSRQK; and MRSQK raises for a vacuum first reference.", "quantifier": "all Hamiltonians with real coefficients, all reference preparations, numbers of states, time steps, Trotter numbers, reference lists", "why_tests_cant": "all Hamiltonians, times, sizes; the fast matrices are compared in tests with stored energies only", "anchors": ["src/qforte/qkd/srqk.py: SRQK.build_qk_mats_fast", "src/qforte/qkd/mrsqk.py: MRSQK.build_qk_mats_fast", "src/qforte/qkd/ntsrqk.py: NTSRQK.build_qk_mats"]}
{"id": "C78", "title": "Experiment averages", "statement": "Experiment(n, generator, operator, N).perfect_experimental_avg() is the real part of <psi|operator|psi> for the state psi prepared by generator. experimental_avg() is, for independent draws following the Born rule, an unbiased estimate of it with variance sum (Re c)^2 (1 - <P>^2) / N over the terms c P; for any draws it is at most sum |Re c| in size, and it is exact in a state where every string has a definite value. N = 0 raises ZeroDivisionError, prepare_each_time=True raises.", "quantifier": "all circuits of exactly applied gates, all operators made of Pauli strings, all sample numbers, all sequences of draws and all probability spaces of independent draws", "why_tests_cant": "a statistical claim over all draws, states and operators; a test sees one random sequence", "anchors": ["src/qforte/experiment/experiment.py: Experiment.experimental_avg, Experiment.perfect_experimental_avg", "src/qforte/computer.cc: Computer::measure_circuit, perfect_measure_circuit"]}
{"id": "C79", "title": "SRQK matrix elements by Hadamard tests", "statement": "matrix_element(m, n) of SRQK, which runs a Hadamard test on n_qubits+1 qubits with controlled Trotter circuits, returns exactly <psi_m|psi_n>, and with use_op=True <psi_m|H|psi_n>, where psi_k is the reference state evolved for time k*dt by the Trotter product with the requested number of slices (phases included). build_qk_mats_realistic therefore returns the same S and H as build_qk_mats_fast.", "quantifier": "all Hamiltonians with real coefficients on Pauli strings, all reference circuits of exactly applied gates, all time steps, Trotter numbers and numbers of states, all m and n", "why_tests_cant": "an identity between two different quantum circuits for every Hamiltonian, reference and time step", "anchors": ["src/qforte/qkd/srqk.py: SRQK.matrix_element, SRQK.build_qk_mats_realistic, SRQK.build_qk_mats_fast", "src/qforte/utils/trotterization.py: trotterize_w_cRz", "src/qforte/utils/exponentiate.py: exponentiate_pauli_string"]}
{"id": "C80", "title": "Quantum phase estimation", "statement": "QPE.run on a trial state that is an eigenvector of the Trotterised evolution with eigenvalue exp(2 pi i phi) leaves, before measurement, amplitude 2^-a sum_y exp(2 pi i y (phi - x/2^a)) on ancilla value x times the trial state. Whatever the measurement draws (fast or realistic mode), every readout is the binary digits of a number read with non-zero probability, the final phase is the digit-wise strict majority, and each energy is the one nearest to the guess among all energies with that phase. If phi has a binary digits, every readout, the majority and the mode are phi and the eigenvalue itself is returned when it lies within pi/|t| of the guess. (The documented window 2 pi/t is false, and the digit-wise majority may be a phase nobody read.)", "quantifier": "all Hamiltonians with real coefficients on Pauli strings, trial circuits of exactly applied gates, times t, Trotter numbers, numbers of runs and ancillas, guesses, and all sequences of draws", "why_tests_cant": "a statement about every Hamiltonian, ancilla number and random sequence; a test checks one molecule with one seed", "anchors": ["src/qforte/qpea/qpe.py: QPE.run, get_Uhad, get_dynamics_circ, get_qft_circuit, get_z_circuit"]}
{"id": "C81", "title": "Success probability of phase estimation", "statement": "With the number of ancillas QPE.run derives from success_prob < 1 and num_precise_bits, the probability that a single readout agrees with the phase of the eigenstate to within 2^-num_precise_bits (on the circle) is at least success_prob.", "quantifier": "all Hamiltonians, trial eigenstates, phases, times, precisions and success probabilities below 1", "why_tests_cant": "a lower bound on a probability for every real phase and precision; sampling can only estimate it for one instance", "anchors": ["src/qforte/qpea/qpe.py: QPE.run (n_ancilla), get_dynamics_circ, get_qft_circuit"]}
{"id": "C82", "title": "Quantum imaginary time evolution", "statement": "QITE.run makes int(beta/db) steps. In each step the coefficients solve S x = b for the (selected) pool strings and are, among all real coefficients, those whose unitary step is nearest to the normalised first-order imaginary-time step; the state becomes the Trotterised exp(-i db sum x sigma) of the previous one (up to the recorded phase), stays normalised, is the one the accumulated circuit prepares, and the recorded energies are those of the successive states, so never below the ground state; the counters of parameters, CNOTs and measurements are right. To first order in the time step the energy falls, strictly unless b = 0. The expansion pool consists of exactly the documented Pauli strings. (When 1 - 2 db <H> <= 0 the sparse mode silently stalls and the dense mode raises ValueError.)", "quantifier": "all Hamiltonians with real coefficients on Pauli strings, references, pools, step sizes, thresholds, Trotter numbers and numbers of steps; every least-squares solver", "why_tests_cant": "optimality of the step over all coefficient vectors and the invariant over any number of steps cannot be sampled", "anchors": ["src/qforte/ite/qite.py: QITE.run, build_expansion_pool, build_S, build_sparse_S_b, build_b, do_qite_step, evolve"]}
{"id": "C83", "title": "Quantum Krylov energies are variational", "statement": "The energies SRQK.run, NTSRQK.run and MRSQK.run report are real and each is the energy of a normalised state in the span of the Krylov states, so none lies below the exact ground state; when no direction of the overlap matrix is dropped the ground-state energy is the minimum over the span, hence never above the energy of any reference. A target root beyond the numerical rank raises IndexError. (This needs the eigen-solver to return the overlap eigenvalues in descending order, which scipy does not promise: without it a reported energy can lie below the exact ground state.)", "quantifier": "all Hamiltonians with real coefficients on Pauli strings, references, numbers of Krylov states, time steps, Trotter numbers, target roots; every solver that meets the contract", "why_tests_cant": "a bound over all states and all Hamiltonians, and dependence on the order an external routine may choose", "anchors": ["src/qforte/abc/qsdabc.py: QSD.common_run", "src/qforte/qkd/srqk.py: SRQK.run", "src/qforte/qkd/mrsqk.py: MRSQK.run", "src/qforte/maths/eigsolve.py: canonical_geig_solve"]}
{"id": "C84", "title": "QLanczos", "statement": "QITE.run with do_lanczos keeps the states after the steps 0, g, 2g, ...; the overlap and Hamiltonian matrices are the Gram matrices of these states, and the reported Lanczos energy is the lowest Ritz energy of their span: real, never below the exact ground state and, when no direction was dropped, never above the QITE energy of any kept state.", "quantifier": "all Hamiltonians, references, pools, step sizes, gaps and numbers of steps; every least-squares and eigen-solver that meets its contract", "why_tests_cant": "a variational bound over all trajectories", "anchors": ["src/qforte/ite/qite.py: QITE.evolve, do_qlanczos", "src/qforte/maths/eigsolve.py: canonical_geig_solve"]}
{"id": "C85", "title": "ADAPT-VQE", "statement": "ADAPTVQE.run: an iteration that is not converged appends, with amplitude zero, the first pool operator whose gradient has the largest modulus (with use_cumulative_thresh: the shortest tail of the operators in order of gradient such that those left out have together a norm of at most the threshold); appending operators with amplitude zero does not change the state; the energies never increase, the first is not above the reference energy, the result is the last of them, is the energy of the final operators and amplitudes and is not below the exact ground state; the run stops after the first iteration whose gradient norm is below avqe_thresh or after adapt_maxiter iterations, and at least one.", "quantifier": "all Hamiltonians, references, pools, options, thresholds, iteration counts and optimizers that do not end above their start", "why_tests_cant": "monotonicity, the variational bound and termination concern every sequence of gradients and every optimizer result", "anchors": ["src/qforte/ucc/adaptvqe.py:ADAPTVQE.run", "src/qforte/ucc/adaptvqe.py:update_ansatz", "src/qforte/ucc/adaptvqe.py:conv_status", "src/qforte/ucc/adaptvqe.py:scipy_solve"]}
{"id": "C86", "title": "SPQE operator pool", "statement": "SPQE builds its pool from exactly the determinants other than the reference that have the same numbers of alpha and beta electrons, the requested irrep and at most max_excit_rank excited electrons, each once and in increasing order; each pool operator turns the reference determinant into plus or minus its determinant; if the irrep is that of an aufbau reference the pool is that of SQOpPool.fill_pool; a rank that is not positive is a TypeError.", "quantifier": "all occupation lists of up to 64 spin orbitals, orbital irreps, requested irreps and ranks", "why_tests_cant": "the bit-string enumeration has exponentially many cases and must be complete and duplicate free for every reference and symmetry", "anchors": ["src/qforte/ucc/spqe.py:SPQE.run", "src/qforte/utils/state_prep.py:build_refprep"]}
{"id": "C87", "title": "SPQE residual vector", "statement": "SPQE.get_residual_vector(t) returns in the order of the ansatz operators the residuals <Phi_mu|U'HU|Phi>, with the sign of the excitation if the Jacobi solver is used, where U is the operator of ansatz_circuit(t); both conventions have the same modulus; the residuals are real for Hamiltonians with a real matrix, otherwise a residual that is not real is a ValueError; a wrong number of amplitudes is an AssertionError.", "quantifier": "all Hamiltonians, references, selected operators, amplitudes and Trotter numbers, fermionic and qubit excitations", "why_tests_cant": "the identity of the residuals and their sign convention must hold for every state and every set of operators", "anchors": ["src/qforte/ucc/spqe.py:get_residual_vector", "src/qforte/ucc/spqe.py:get_sum_residual_square"]}
{"id": "C88", "title": "SPQE macro-iterations", "statement": "SPQE.run with M_omega='inf': each macro-iteration estimates the residual norm over all pool operators not in the ansatz; the estimates tend to the residuals as dt tends to 0; if the norm is below spqe_thresh the run has converged and nothing is changed, otherwise the operators with the largest residuals, such that those left out have together a squared norm of at most spqe_thresh^2 (or, without use_cumulative_thresh, the single largest one), are put in front of the ansatz with amplitude zero, which does not change the state; no operator is selected twice; the result is the last energy, is the energy of the final ansatz, is not below the exact ground state; the run makes at most spqe_maxiter+1 solves and fewer only if converged. Convergence in the first macro-iteration is an IndexError, and with a finite M_omega a run never returns normally.", "quantifier": "all Hamiltonians of real Pauli strings, references, irreps, ranks, thresholds, iteration limits, solver results and measurement outcomes", "why_tests_cant": "selection, termination and the variational bound concern every sequence of residuals and solver results; non-termination with finite M_omega concerns every measurement outcome", "anchors": ["src/qforte/ucc/spqe.py:SPQE.run", "src/qforte/ucc/spqe.py:update_ansatz", "src/qforte/ucc/spqe.py:conv_status", "src/qforte/abc/uccpqeabc.py:solve"]}
{"id": "C89", "title": "Circuits and operators from text", "statement": "build_circuit, given gate descriptions in the documented formats (action_target, action_target_control, action_target_parameter, action_target_control_parameter) separated by any white space, returns the circuit of the described gates in their order, or raises what the first bad description raises; build_operator splits 'coeff, circuit; coeff, circuit' into the terms in their order. (False for the documented four-field format: the control is read as the parameter.)", "quantifier": "all lists of gate descriptions, layouts of white space, numbers and coefficients", "why_tests_cant": "there are infinitely many texts, layouts and numbers", "anchors": ["src/qforte/helper/io_helper.py:build_circuit", "src/qforte/helper/io_helper.py:build_operator"]}
{"id": "C90", "title": "Transverse-field Ising model", "statement": "create_TFIM(n,h,J) gives the open-chain Hamiltonian -h sum Z_i - J sum X_i X_{i+1} on n qubits, Hermitian with one real coefficient per Pauli string, commuting with the parity of the number of excited sites; its reference is the empty determinant, whose energy is -h n; system_factory('model','TFIM') selects it and nothing else does.", "quantifier": "all chain lengths, fields and couplings", "why_tests_cant": "the operator identity ranges over all lengths and real parameters", "anchors": ["src/qforte/adapters/model_adapters.py:create_TFIM", "src/qforte/system/system_factory.py:system_factory"]}
{"id": "C91", "title": "Irreps of the point groups", "statement": "irreps_of_point_groups returns, for each of the eight abelian groups in any letter case, the irreps with the totally symmetric one first and in an order in which the product of irreps i and j is irrep i xor j; hence find_irrep of a determinant is the irrep of the product of the characters of its occupied orbitals; char_table is the multiplication table; another name is a ValueError.", "quantifier": "all group names, lists of orbital irreps and lists of occupied orbitals", "why_tests_cant": "the lists of orbitals are unbounded", "anchors": ["src/qforte/utils/point_groups.py:irreps_of_point_groups", "src/qforte/utils/point_groups.py:char_table", "src/qforte/find_irrep.h:find_irrep"]}
{"id": "C92", "title": "Molecules from a file of integrals", "statement": "create_external_mol: sq_hamiltonian is E + sum h_pq p^ q + 1/4 sum <pq||rs> p^ q^ s r of the integrals in the file and hamiltonian is the same operator on qubits, up to terms of at most 1e-12; integrals with the usual symmetry give exactly Hermitian Hamiltonians with real Pauli coefficients; hf_reference puts na electrons in the lowest alpha and nb in the lowest beta spin orbitals; the spatial orbitals get the irreps of their alpha spin orbitals; a well-formed file is always accepted.", "quantifier": "all files of integrals (any number of orbitals, electrons and entries), all orders std::sort may produce for equal keys", "why_tests_cant": "the files are arbitrary; the operator identity and Hermiticity concern all matrix elements", "anchors": ["src/qforte/adapters/molecule_adapters.py:create_external_mol"]}
{"id": "C93", "title": "Molecules with frozen orbitals", "statement": "create_psi_mol, from psi4's integrals: the active-space Hamiltonian with the frozen-core energy and the dressed one-electron integrals is the full electronic Hamiltonian restricted to the states whose core orbitals are doubly occupied and whose frozen virtuals are empty (every matrix element), up to terms of at most 1e-12; it is Hermitian with real Pauli coefficients; the energy of the closed-shell reference is the Hartree-Fock energy of all occupied orbitals; hf_reference gives each active orbital, in order of energy, its alpha and beta occupation, and holds all electrons but those of the core.", "quantifier": "all numbers of orbitals, frozen core and frozen virtual orbitals, integrals with the usual symmetry, orbital energies, irreps and occupations", "why_tests_cant": "an identity of operators on a space of every dimension, for all integrals", "anchors": ["src/qforte/adapters/molecule_adapters.py:create_psi_mol"]}
{"id": "C94", "title": "symmetry_check reports the sector weights, means and variances of the state", "statement": "On a register of 2k spin orbitals, with orbital irreps numbered inside the Cotton ordering of the group and enough orbitals listed, symmetry_check succeeds without changing the state and reports, for every particle number, every spin projection and every irrep, exactly the summed weight of the determinants in that sector, the weight of the target sector, and the mean and variance of N, of Sz and of S^2 of the state. Each list of weights adds up to the squared norm and the means of N and Sz are the weighted averages of the reported sectors. For a normalised state no variance is negative; the variance of N (of Sz) is zero exactly when one reported weight is 1, that of S^2 exactly when the state is an eigenvector of S^2. On an odd number of qubits it never returns normally.", "quantifier": "all register sizes, all states, all orbital irreps, all targets", "why_tests_cant": "The numbers must be right for every state of every register; a test compares a few molecules.", "anchors": ["src/qforte/utils/symmetry_analysis.py:symmetry_check", "src/qforte/utils/spin_operators.py", "src/qforte/find_irrep.cc:find_irrep", "src/qforte/computer.cc:Computer::direct_op_exp_val"]}
{"id": "C95", "title": "Moment corrections and single-particle energies", "statement": "construct_moment_space lists, in increasing order, exactly the determinants with the reference's numbers of alpha and beta electrons, of the reference's irrep, other than the reference, with at most max_moment_rank electrons moved; its Moller-Plesset denominators are the orbital energies of the holes minus those of the particles and its Epstein-Nesbet energies are <I|H|I>; a negative rank raises TypeError. compute_moment_energies returns E + sum |m_I|^2/denominator with m_I = <I|U^dag exp(i dt H) U|Phi>/dt (Trotter circuit), ZeroDivisionError for dt = 0; as dt -> 0 this tends to E + sum |<I|U^dag H U|Phi>|^2/denominator, and the corrections vanish if U|Phi> is an eigenvector of H. build_orb_energies doubles given Hartree-Fock energies, and otherwise computes for every spin orbital the energy lost by removing its electron, or gained by adding one.", "quantifier": "all register sizes, references, orbital symmetries, Hamiltonians of Pauli strings with real coefficients, orbital energies, ranks, ansatz circuits, Trotter numbers, time steps", "why_tests_cant": "The space, the denominators and the limit must be right for every reference, symmetry and circuit; a test compares a few molecules to reference numbers.", "anchors": ["src/qforte/utils/moment_energy_corrections.py:construct_moment_space", "src/qforte/utils/moment_energy_corrections.py:compute_moment_energies", "src/qforte/abc/ansatz.py:build_orb_energies"]}
{"id": "C96", "title": "Construction of algorithms: which arguments are accepted and what the object holds", "statement": "Constructing an algorithm succeeds exactly if the reference fits the state preparation (an occupation list, given or of the system; a circuit; a computer only for the classes that can start from one) and, where required, no orbitals are frozen; otherwise the documented exception is raised. The object then holds the number of qubits of the Hamiltonian, the reference circuit that prepares the reference, the Hamiltonian of the system plus, for a well-formed penalty dictionary, exactly the penalty terms, and the irrep asked for. A malformed penalty raises TypeError/KeyError/ValueError. An object constructed from sound arguments satisfies the preconditions of all the energy, gradient and circuit theorems. Reference circuits, penalty operators and occupation entries should fit the register.", "quantifier": "all algorithm classes, systems, references, state preparations, penalty values, irrep labels and pools", "why_tests_cant": "Every combination of classes and arguments has to be either refused or to yield an object whose later calls stay inside the state vector; a test tries a few.", "anchors": ["src/qforte/abc/algorithm.py:Algorithm.__init__", "src/qforte/abc/algorithm.py:AnsatzAlgorithm.__init__", "src/qforte/abc/algorithm.py:AnsatzAlgorithm.fill_pool"]}
{"id": "C97", "title": "Whole runs of UCCNVQE and UCCNPQE", "statement": "A run builds the ansatz of every operator of the named pool with amplitude zero: for the particle-hole pools the excitations from the reference to the determinants of the same electron numbers per spin and total symmetry that are reached upwards, up to the rank of the name; for GSD every generalised single and double once; an unknown name is refused with ValueError. If the run returns, the amplitudes are as many as the excitations, the reported energy is the expectation value of the Hamiltonian in the normalised state of the final amplitudes, hence above every lower bound of the Hamiltonian and, as the state keeps electron number, spin and irrep of the reference determinant, above every lower bound in that symmetry sector; with an optimizer that does not increase the energy it is not above the reference energy; the CNOT count is that of the final circuit. With a scipy optimizer the variational run returns whenever the optimizer does. The projective run needs an occupation-list reference and a known optimizer; its Jacobi solver stops before the maximum number of iterations only after residuals below the threshold.", "quantifier": "all Hamiltonians, references, pools, qubit or fermionic excitations, Trotter numbers, optimizers meeting their contract, amplitudes", "why_tests_cant": "The variational and symmetry bounds have to hold for every molecule, pool and optimizer trajectory; a test compares one energy with a reference value.", "anchors": ["src/qforte/ucc/uccnvqe.py:UCCNVQE.run", "src/qforte/ucc/uccnvqe.py:UCCNVQE.scipy_solve", "src/qforte/ucc/uccnpqe.py:UCCNPQE.run", "src/qforte/abc/uccpqeabc.py:UCCPQE.solve", "src/qforte/maths/optimizer.py:scipy_solver"]}
{"id": "C98", "title": "Reference selection and whole runs of MRSQK and SRQK", "statement": "MRSQK.run first makes an SRQK calculation, which always succeeds, and selects determinants with it: as many as requested, all different, of the size of the register, the Hartree-Fock reference among them, and the most important ones of the target root. For spin-adapted references the determinants are completed to whole configurations (all determinants with the same spatial occupation and electron count per spin), the Hamiltonian is diagonalised in them, and the most important configurations give the references: the restriction of the CI root to the configuration, normalised; these references are orthonormal. The final energies are the Ritz values of the Hamiltonian in the Trotterized evolutions of the references, sorted, never below a lower bound of the Hamiltonian, and, if no direction is numerically lost, not above the energy of any reference. Diagonalising at each step changes nothing in the result. Options that are not implemented and target roots that do not exist are refused.", "quantifier": "all Hamiltonians with real coefficients, references, numbers of references and time steps, time steps, Trotter numbers, target roots, eigensolvers meeting their contract", "why_tests_cant": "The selection and the bounds have to hold for every Hamiltonian and every outcome of the eigensolver; tests compare one molecule's energy with a number.", "anchors": ["src/qforte/qkd/mrsqk.py:MRSQK.run", "src/qforte/qkd/mrsqk.py:MRSQK.build_refs", "src/qforte/qkd/mrsqk.py:MRSQK.build_sa_refs", "src/qforte/qkd/mrsqk.py:MRSQK.build_classical_CI_mats", "src/qforte/qkd/mrsqk.py:MRSQK.build_sa_qk_mats_fast", "src/qforte/qkd/srqk.py:SRQK.build_qk_mats_fast", "src/qforte/abc/qsdabc.py:QSD.common_run"]}
{"id": "C99", "title": "circuit_to_latex draws the circuit", "statement": "The figures written for a circuit, read one after the other and column by column, show a circuit with the same gates, in the same order on every qubit, and the same operator; every figure has one row per used qubit, all rows of equal length, the first figure names the qubits, and no figure has more columns than max_circuit_depth_per_tikz. An empty circuit, a non-positive depth, two-qubit gates other than CNOT, aCNOT and cZ, and two-qubit gates across unused qubits are refused.", "quantifier": "all circuits, all limits of the depth", "why_tests_cant": "Whether gates may share a column and where a figure is split depends on the whole history of every wire; the test compares one circuit with one file.", "anchors": ["src/qforte/utils/circuit_to_latex.py:circuit_to_latex"]}
{"id": "C100", "title": "Trotterization converges to the exact evolution", "statement": "For every operator made of Pauli strings and every factor that makes it anti-hermitian, the circuit and phase of trotterize with N steps differ from the exact exponential, on every state, by at most W/N times its norm, where W is the sum of the products of the absolute scaled coefficients over the pairs of terms that do not commute; hence the circuits converge to the exact exponential as N grows, and the overlap and Hamiltonian matrices of the single-reference Krylov method converge to those of the exactly propagated states with the corresponding rate.", "quantifier": "all operators on all registers, all factors, all numbers of Trotter steps, all states", "why_tests_cant": "The tests use one Hamiltonian and a few step numbers; the limit and the rate range over all of them.", "anchors": ["src/qforte/utils/trotterization.py:trotterize", "src/qforte/qkd/srqk.py:SRQK.build_qk_mats_fast"]}
{"id": "C101", "title": "Phase estimation with an arbitrary trial state", "statement": "For every trial state the readout x of a ancillas has the probability of the squared norm of 2^{-a} sum_y e^{-2 pi i x y/2^a} W^y trial, W being the Trotterized evolution. If v is a unit eigenvector of the Hamiltonian, the phase of its eigenvalue is read to num_precise_bits bits with probability at least |<v|trial>|^2 success_prob, less 2^{a+1} times the bound t^2 W/N of the Trotter error; nothing is assumed about the trial state or about commuting terms.", "quantifier": "all Hamiltonians, trial states, eigenvectors, times, numbers of Trotter steps and of ancillas", "why_tests_cant": "The tests run one molecule whose trial state is almost an eigenvector; the guarantee is probabilistic and ranges over all states.", "anchors": ["src/qforte/qpea/qpe.py:QPE.run", "src/qforte/qpea/qpe.py:QPE.get_dynamics_circ"]}
{"id": "C102", "title": "CNOT counts of the circuits built", "statement": "The exponential of a Pauli string of k letters has 2(k-1) CNOT gates, also with a controlled rotation; a Trotter circuit has N times the sum over its strings, whatever the time step. An excitation of r electrons between different spin orbitals has 2^(2r-1) Jordan-Wigner strings of 2r+s letters, s being the number of other qubits with an odd number of its orbitals above them, so its Trotter circuit has 2^(2r-1)*2(2r+s-1) CNOT gates and its compact circuit 2^(2r-1)+2(2r-1)+2 max(s-1,0), never more and fewer unless r=1 and s=0. The numbers of CNOT gates the coupled-cluster and Krylov algorithms report are the corresponding sums and do not depend on the values of amplitudes that are not dropped or on the time step.", "quantifier": "all Pauli strings, operators, Trotter numbers, excitations (any rank), pools, amplitudes, numbers of Krylov states", "why_tests_cant": "The tests compare a few counts of small molecules; the formulas range over all excitations and all operators.", "anchors": ["src/qforte/circuit.cc:Circuit::get_num_cnots", "src/qforte/utils/exponentiate.py:exponentiate_pauli_string", "src/qforte/utils/trotterization.py:trotterize", "src/qforte/utils/compact_excitation_circuits.py:compact_excitation_circuit", "src/qforte/abc/ansatz.py:UCC.ansatz_circuit", "src/qforte/qkd/srqk.py:SRQK.build_qk_mats_fast", "src/qforte/qkd/mrsqk.py:MRSQK.build_qk_mats_fast"]}
{"id": "C103", "title": "Gradients measured through commutators", "statement": "After fill_commutator_pool(), measure_operators(commutator pool, U, idxs) returns, for each selected pool operator, the derivative at amplitude zero of the energy of the state U prepares along that excitation, i.e. the expectation value of the commutator of the Hamiltonian with it, and so agrees with measure_gradient3(); whatever the simplifications drop is bounded, and the assertion on imaginary parts cannot fail unless that bound exceeds 1e-7.", "quantifier": "all real Hamiltonians of Pauli strings, pools of excitations with real coefficients, state preparation circuits, selections of operators", "why_tests_cant": "The tests run ADAPT-VQE on small molecules with the default gradient; agreement of the two routes is needed for every Hamiltonian, pool and circuit.", "anchors": ["src/qforte/abc/uccvqeabc.py:UCCVQE.fill_commutator_pool", "src/qforte/abc/uccvqeabc.py:UCCVQE.measure_operators", "src/qforte/abc/uccvqeabc.py:UCCVQE.measure_gradient3", "src/qforte/qubit_op_pool.cc:QubitOpPool::join_as_commutator", "src/qforte/sq_op_pool.cc:SQOpPool::get_qubit_op_pool", "src/qforte/computer.cc:Computer::direct_oppl_exp_val"]}
{"id": "C104", "title": "The summary file", "statement": "With print_summary_file=True, at the end of a run and at every point where it may fail, summary.dat consists of comment lines (beginning with #) and exactly one line of data for each iteration completed so far, in order, with the number, the energy and, for residual minimizations, the change of the energy since the iteration before, and lanczos_summary.dat one line for each Lanczos problem solved so far; without the option no file is touched.", "quantifier": "all runs: numbers of iterations and macro-iterations, energies, counts, previous contents of the file, points of failure", "why_tests_cant": "The tests switch the option off; what is left on disk depends on the whole history of writes through two handles, and on where a run fails.", "anchors": ["src/qforte/abc/uccpqeabc.py:UCCPQE.report_iteration", "src/qforte/abc/uccvqeabc.py:UCCVQE.report_iteration", "src/qforte/ucc/adaptvqe.py:ADAPTVQE.run", "src/qforte/ucc/spqe.py:SPQE.run", "src/qforte/ite/qite.py:QITE.evolve", "src/qforte/ite/qite.py:QITE.do_qlanczos", "src/qforte/qkd/srqk.py:SRQK.build_qk_mats_fast", "src/qforte/qkd/nt_srqk.py:NTSRQK.build_qk_mats_fast"]}
{"id": "C105", "title": "Imaginary time evolution lowers the energy at a finite time step", "statement": "In QITE, the energy recorded after a step with imaginary time db differs from the energy before it minus 2 db sqrt(c) |sum_I x_I sigma_I psi|^2 (c = 1 - 2 db E, x the solution of the linear system) by at most 2 h (db sum|x|)^2 + 2 h |db| (sum of the coefficients that x_thresh discards), h the sum of the moduli of the Hamiltonian's coefficients. So if no coefficient is discarded, db > 0, 2 db h < 1 and 2 db m h <= l sqrt(1 - 2 db h) for m strings whose overlap matrices have no eigenvalue below l, the energies of the run never increase.", "quantifier": "all Hamiltonians with real coefficients, references, pools of Pauli strings, thresholds, Trotter numbers, time steps and numbers of steps", "why_tests_cant": "The tests compare the final energy of one or two molecules with a reference value; nothing tells for which time steps the method descends.", "anchors": ["src/qforte/ite/qite.py:QITE.do_qite_step", "src/qforte/ite/qite.py:QITE.build_sparse_S_b", "src/qforte/ite/qite.py:QITE.evolve"]}
{"id": "C106", "title": "Printed forms", "statement": "str() of a circuit determines the type and the qubits of each of its gates, in order; str() of a qubit operator determines its Pauli strings, in order, and their coefficients to six decimals; str() of a second-quantised operator determines its terms and their coefficients to six decimals; str() of a computer determines which amplitudes reach the printing threshold, and these to six decimals. str() of a pool of operators determines the number and order of its operators, their strings or terms, and all coefficients to six decimals; repr() of a gate determines its label, its qubits and its matrix to six decimals (so, unlike str(), it shows rotation angles). Objects that differ in more than that print differently.", "quantifier": "all circuits and gates of the API, operators, pools, states of up to 64 qubits", "why_tests_cant": "Injectivity over all pairs of objects; ambiguous concatenations (labels, multi-digit indices, separators) only show for particular pairs.", "anchors": ["src/qforte/gate.cc:Gate::str", "src/qforte/circuit.cc:Circuit::str", "src/qforte/qubit_operator.cc:QubitOperator::str", "src/qforte/sq_operator.cc:SQOperator::str", "src/qforte/computer.cc:Computer::str", "src/qforte/helpers.cc:join, to_string", "src/qforte/gate.cc:Gate::repr", "src/qforte/sq_op_pool.cc:SQOpPool::str", "src/qforte/qubit_op_pool.cc:QubitOpPool::str"]}
{"id": "C107", "title": "Restricting QITE to strings with an odd number of Y loses nothing", "statement": "For a Hamiltonian with real coefficients whose strings have an even number of Y, a reference with real amplitudes and a nonnegative b_thresh, QITE with sparse_Sb gives with any pool of Pauli strings, and with those of its strings that have an odd number of Y, the same circuit, energies, parameters, CNOT count, Lanczos vectors and result; in particular with expansion_type 'complete_qubit' and 'cqoy'. Only the number of measurements is larger, by (terms of H) x (dropped strings) per step. Without sparse_Sb no coefficients of the full pool give a step nearer to the imaginary-time step than the best ones of the odd strings.", "quantifier": "all such Hamiltonians, references, pools, time steps, Trotter numbers, numbers of steps, both builds", "why_tests_cant": "An equality of two whole runs over all Hamiltonians and step counts.", "anchors": ["src/qforte/ite/qite.py:QITE.run, build_expansion_pool, build_sparse_S_b, do_qite_step, evolve", "src/qforte/qubit_op_pool.cc:QubitOpPool::fill_pool"]}
{"id": "C108", "title": "Molecular Hamiltonians have strings with an even number of Y only", "statement": "The Jordan-Wigner transform of a self-adjoint particle-conserving operator with real coefficients has real coefficients and only strings with an even number of Y; so does the Hamiltonian of every molecule built from psi4 or from a file with real integrals of the usual symmetries. Hence for molecules the expectation value computed by the parallel build equals that of the serial build and the exact one, for every schedule and state, although it is wrong for general operators (C29, C30).", "quantifier": "all molecules (real integrals), states, schedules", "why_tests_cant": "All molecules and all thread interleavings; depends on linear independence of the strings and on what simplification drops.", "anchors": ["src/qforte/sq_operator.cc:SQOperator::jw_transform, simplify", "src/qforte/adapters/molecule_adapters.py:create_psi_mol, create_external_mol", "src/qforte/computer.cc:direct_op_exp_val, direct_pauli_circ_exp_val"]}
{"id": "C109", "title": "The serial and the parallel build of the library give the same results for molecules", "statement": "For a Hamiltonian of Pauli strings with an even number of Y each (every molecule, C108), whole runs of UCCN-VQE, UCCN-PQE, ADAPT-VQE, SPQE and QITE, the single-particle energies and the moment denominators return in a library compiled with OpenMP, whatever the distribution of the work over the threads, exactly what they return in the serial build: the same results or the same exception (for QITE up to the operation counters of its computer). For strings with an odd number of Y the two builds return opposite expectation values.", "quantifier": "all molecules, algorithm objects, options, pools, references, optimizers and thread schedules", "why_tests_cant": "Thread schedules and whole runs over all inputs; a unit test runs one build with one schedule.", "anchors": ["src/qforte/computer.cc:direct_op_exp_val, direct_pauli_circ_exp_val", "src/qforte/abc/algorithm.py:measure_energy, energy_feval", "src/qforte/ucc/uccnvqe.py:UCCNVQE.run", "src/qforte/ucc/uccnpqe.py:UCCNPQE.run", "src/qforte/ucc/adaptvqe.py:ADAPTVQE.run", "src/qforte/ucc/spqe.py:SPQE.run", "src/qforte/ite/qite.py:QITE.run"]}
{"id": "C110", "title": "The resource counts reported by ADAPT-VQE", "statement": "After ADAPT-VQE's run returns, the printed table has exactly one line per iteration, with that iteration's energy, number of parameters, CNOT count of the circuit of its ansatz, and the running total of Pauli measurements (per iteration: Nl times the Pauli terms of the whole pool for the scan, Nl per energy, Nl times the Pauli terms of the ansatz's operators per analytic gradient; for the Jacobi solver Nl times one plus twice the parameters per iteration); the final counters are those of the last line; the counters never make a run fail that would return without them; the Hamiltonian measurements in the banner are the total number of energy evaluations reported by the optimizer, while each later call of get_num_ham_measurements returns one more multiple of it; with one operator per iteration the commutator measurements are the pool size per selecting scan plus the parameters per analytic gradient.", "quantifier": "all algorithm objects, pools, options, optimizers and numbers of iterations and calls", "why_tests_cant": "The counts depend on the whole history of a run of unbounded length and on every optimizer's report.", "anchors": ["src/qforte/ucc/adaptvqe.py:ADAPTVQE.run, update_ansatz, scipy_solve, get_num_ham_measurements, get_num_commut_measurements", "src/qforte/maths/optimizer.py:jacobi_solver"]}
{"id": "C111", "title": "The evaluation counters of the Jacobi solver and of UCCN-VQE and UCCN-PQE", "statement": "jacobi_solver evaluates the residual (or gradient) vector exactly once and the energy exactly once per iteration, plus one energy at the start; the reported numbers of vector and element evaluations are the iterations and the iterations times the number of amplitudes; the measurements it adds are Nl times (twice the amplitudes plus one) per iteration. UCCN-VQE with scipy reports Nl per energy and twice Nl per gradient for every final amplitude above 1e-12. UCCN-PQE reports at most what the Jacobi solver counted, and the same exactly if no final amplitude is below 1e-12.", "quantifier": "all energies, residuals, preconditioners, amplitudes, DIIS settings and numbers of iterations", "why_tests_cant": "The counts depend on the history of a loop of unbounded length with arbitrary residual functions.", "anchors": ["src/qforte/maths/optimizer.py:jacobi_solver", "src/qforte/abc/uccvqeabc.py:gradient_ary_feval", "src/qforte/ucc/uccnpqe.py:UCCNPQE.run, get_residual_vector", "src/qforte/ucc/uccnvqe.py:UCCNVQE.scipy_solve"]}
{"id": "C112", "title": "What the scipy optimizers of UCCN-PQE minimise", "statement": "get_sum_residual_square(t) is the sum of the squared moduli of the residuals of the state psi made by the ansatz with amplitudes t, for every number of Trotter steps: it is never negative, zero exactly if all residuals vanish, at most the variance of the Hamiltonian in psi, and ValueError is raised exactly if a residual is not real. An eigenstate has objective zero; conversely objective zero means an eigenstate if the Hamiltonian leads from psi only into the space of the pool. A run with such an optimizer starts at amplitude zero, reports the energy of the amplitudes the optimizer returned, and with an optimizer that does not go up ends with an objective not above the sum of the squared couplings of the reference to the excited determinants.", "quantifier": "all molecules and real Hamiltonians, references, particle-hole pools, amplitudes, Trotter numbers and optimizers", "why_tests_cant": "The bound and the equivalence with vanishing residuals are statements over all amplitudes and Hamiltonians; tests see a few molecules.", "anchors": ["src/qforte/abc/uccpqeabc.py:get_sum_residual_square, solve", "src/qforte/maths/optimizer.py:scipy_solver", "src/qforte/ucc/uccnpqe.py:get_residual_vector, fill_excited_dets, run"]}
{"id": "C113", "title": "Resource counts of SPQE", "statement": "A run of SPQE leaves counters that are exact functions of its history: with the Jacobi solver the counted energy and residual evaluations are those the solver makes, the parameters and CNOTs counted are those of the final ansatz, the Pauli measurements are the products of the number of Hamiltonian terms and of the evaluations counted with the ansatz in use at each solve, and each iteration writes one line of the summary file with the counts so far. With a scipy optimizer the Pauli measurements are computed from callback calls, not from residual evaluations. For every pool, Hamiltonian and threshold, the counting never makes a run fail that would otherwise return.", "quantifier": "all pools, Hamiltonians, thresholds, solver outcomes, numbers of iterations", "why_tests_cant": "Counts accumulate over a history of solves whose length depends on the input; a test fixes one.", "anchors": ["src/qforte/ucc/spqe.py:run, get_residual_vector, update_ansatz", "src/qforte/maths/optimizer.py:jacobi_solver, scipy_solver", "src/qforte/abc/uccpqeabc.py:solve"]}
{"id": "C114", "title": "An algorithm object can be run again", "statement": "After any history of runs of ADAPT-VQE or SPQE with one object, with any pools, options and optimizers, completed or interrupted by an exception, the next run gives exactly the energies, ansatz, counters, tables and files that it gives with a fresh object; a second run with the same arguments repeats the first.", "quantifier": "all objects, all finite histories of runs, all arguments of the next run", "why_tests_cant": "The histories are unbounded and include exceptions at any point of a run.", "anchors": ["src/qforte/ucc/adaptvqe.py:run", "src/qforte/ucc/spqe.py:run", "src/qforte/abc/algorithm.py:fill_pool"]}
{"id": "C115", "title": "Penalty terms keep a Hamiltonian real", "statement": "Adding penalty terms s(O-e)^2 for real self-adjoint operators O as the library builds them (S_z, S^2, the Jordan-Wigner transform of any self-adjoint operator with real coefficients) to a real Hamiltonian gives a Hamiltonian with real coefficients whose Pauli strings lie on the register and have an even number of Y, however many terms are added and although small coefficients are dropped on the way; hence energies with penalties do not depend on the build or the number of threads.", "quantifier": "all real Hamiltonians, all lists of real penalty operators, eigenvalues and scaling factors, all register sizes, all schedules", "why_tests_cant": "The operators, eigenvalues and factors are arbitrary; the threshold in the simplifications could drop terms on one side of the product only, and does so for operators not in simplified form.", "anchors": ["src/qforte/abc/algorithm.py:AnsatzAlgorithm", "src/qforte/qubit_operator.cc:operator_product", "src/qforte/qubit_operator.cc:simplify", "src/qforte/utils/spin_operators.py"]}
{"id": "C116", "title": "Krylov energies do not increase when states are added", "statement": "Rerunning SRQK or NTSRQK with more states, or MRSQK with more references or more states per reference, on the same Hamiltonian, preparation, time step and Trotter number gives energies none of which (ground state and every root) is above the energy of the same index of the smaller calculation, provided no direction of the larger calculation is dropped as linearly dependent.", "quantifier": "all Hamiltonians, preparations, references, time steps, Trotter numbers, numbers of states, target roots, eigensolvers meeting their contract", "why_tests_cant": "It compares all pairs of calculations; the overlap matrices, the eigenvectors and the dropped directions differ in every one.", "anchors": ["src/qforte/qkd/srqk.py:SRQK.run", "src/qforte/qkd/mrsqk.py:MRSQK.run", "src/qforte/qkd/nt_srqk.py:NTSRQK", "src/qforte/maths/eigsolve.py:canonical_geig_solve"]}
{"id": "C117", "title": "Krylov calculations stay in the symmetry sector of the reference", "statement": "NTSRQK on a Hamiltonian that conserves an additive quantum number (number of electrons, spin projection), from a state of charge q, keeps every state at charge q, and every reported energy is the energy of a normalised state of charge q, hence not below the lowest energy of that sector. SRQK and MRSQK, which evolve with Trotter products, do the same for every symmetry that each Pauli string of the Hamiltonian has (parities, spatial symmetries), and are allowed to leave the sector otherwise: an instance with two electrons reports an energy below every two-electron energy.", "quantifier": "all Hamiltonians, charges and symmetries, preparations, references, numbers of states, time steps, target roots, eigensolvers and propagators meeting their contracts", "why_tests_cant": "A test compares a few molecules, where the leak is of the order of the Trotter error; the claim is about all of them and about exact conservation, also of the dropped matrix elements.", "anchors": ["src/qforte/qkd/nt_srqk.py:NTSRQK", "src/qforte/qkd/srqk.py:SRQK", "src/qforte/qkd/mrsqk.py:MRSQK", "src/qforte/sparse_tensor.cc:SparseMatrix", "src/qforte/utils/trotterization.py:trotterize"]}
{"id": "C118", "title": "Qubit names and register size do not matter; independent subsystems are additive", "statement": "Running a circuit with its qubits renamed by any permutation gives the same amplitudes at the renamed basis states, and the renamed operator has the same expectation value; gate() makes the renamed gate, or refuses, exactly when it does for the original names. Running a circuit on a larger register gives the same amplitudes and expectation values and zero on the extra qubits. For two circuits on disjoint qubits, in either order, the amplitudes are the products and the expectation value of the sum of their operators is the sum.", "quantifier": "all circuits of gates the simulator applies exactly, all operators, all permutations of the qubits, all register sizes", "why_tests_cant": "A test picks particular qubits; the kernels branch on the order and the distance of target and control, and on the register size.", "anchors": ["src/qforte/computer.cc:Computer::apply_gate", "src/qforte/computer.cc:Computer::direct_op_exp_val", "src/qforte/make_gate.cc:make_gate"]}
{"id": "C119", "title": "Lanczos energies along the imaginary-time evolution", "statement": "In a QITE run with do_lanczos=True, the k-th line of the Lanczos table is the lowest Ritz energy in the span of the first k kept states, taken at the steps 0, gap, 2 gap, ...; the energies never rise from line to line, and a run with a longer imaginary time (the same step) keeps the same states first and never ends with a higher Lanczos energy, as long as no direction of the larger space is discarded.", "quantifier": "all Hamiltonians, reference circuits, pools, step sizes, gaps, imaginary times, eigensolvers and least-squares solvers meeting their contracts", "why_tests_cant": "Tests compare the energy of one run with a number; monotonicity relates runs of every length and every line of each.", "anchors": ["src/qforte/ite/qite.py:QITE.evolve", "src/qforte/ite/qite.py:QITE.do_qlanczos"]}
{"id": "C120", "title": "The zero of energy", "statement": "Adding a real constant c to the Hamiltonian (a new identity term, or a change of the existing one) moves every energy by c and changes nothing else. SRQK and MRSQK: every eigenvalue moves by c, and a target root exists in both calculations or in none. Unitary coupled cluster: the energy at given amplitudes moves by c; the gradients, the pool gradients and the residuals at given amplitudes are unchanged, so a whole UCCNPQE run ends with the same amplitudes, determinants and CNOT count and an energy moved by c. QITE: the steps should also be unchanged.", "quantifier": "all Hamiltonians, constants, positions of the constant term, amplitudes, pools, times, numbers of states and references, eigensolvers and minimisers meeting their contracts", "why_tests_cant": "It relates pairs of runs for every Hamiltonian and every constant; tests run one Hamiltonian with one constant.", "anchors": ["src/qforte/qkd/srqk.py:SRQK.build_qk_mats_fast", "src/qforte/qkd/mrsqk.py:MRSQK.build_qk_mats_fast", "src/qforte/ucc/uccnpqe.py:UCCNPQE.run", "src/qforte/abc/uccvqeabc.py:UCCVQE.measure_gradient", "src/qforte/abc/uccvqeabc.py:UCCVQE.measure_gradient3", "src/qforte/ucc/uccnpqe.py:UCCNPQE.get_residual_vector", "src/qforte/ite/qite.py:QITE.build_b"]}
{"id": "C121", "title": "The unit of energy", "statement": "Writing the Hamiltonian in another unit (every coefficient times a > 0) with times divided by a gives the same calculation in that unit. SRQK and MRSQK with dt/a: every energy is multiplied by a, and a target root exists in both or in none. Unitary coupled cluster: at given amplitudes the energy, the residuals, the gradients and the pool gradients are multiplied by a, and the amplitude update of PQE (residual over orbital-energy denominator) is unchanged, so that a whole run of UCCNPQE with the Jacobi solver and the convergence threshold in the new unit ends with the same amplitudes, determinants and CNOT count and an energy multiplied by a. QITE with db/a, and the thresholds of its linear system in the new unit, takes the same step.", "quantifier": "all Hamiltonians, positive factors, times, numbers of states and references, amplitudes, pools, eigensolvers meeting their contract", "why_tests_cant": "It relates pairs of runs for every Hamiltonian and every factor; tests run one Hamiltonian in hartree.", "anchors": ["src/qforte/qkd/srqk.py:SRQK.build_qk_mats_fast", "src/qforte/qkd/mrsqk.py:MRSQK.build_qk_mats_fast", "src/qforte/abc/uccvqeabc.py:UCCVQE.measure_gradient", "src/qforte/abc/uccvqeabc.py:UCCVQE.measure_gradient3", "src/qforte/ucc/uccnpqe.py:UCCNPQE.get_residual_vector", "src/qforte/ite/qite.py:QITE.do_qite_step", "src/qforte/maths/optimizer.py:jacobi_solver", "src/qforte/ucc/uccnpqe.py:UCCNPQE.run"]}
{"id": "C122", "title": "The order of the references", "statement": "MRSQK run with the same determinants as references in another order finds the same energies, ground-state energy and target energy, whatever number of linearly dependent directions is dropped, and a target root exists for both orders or for neither.", "quantifier": "all Hamiltonians, lists of determinants, permutations of them, times, numbers of states per reference, target roots, eigensolvers meeting their contract", "why_tests_cant": "It ranges over every permutation of every list of references and every Hamiltonian.", "anchors": ["src/qforte/qkd/mrsqk.py:MRSQK.build_qk_mats_fast", "src/qforte/abc/qsdabc.py:QSD.common_run", "src/qforte/maths/eigsolve.py:canonical_geig_solve"]}
{"id": "C123", "title": "The sign of the time step", "statement": "For a Hamiltonian with real coefficients and strings with an even number of Y (every molecular Hamiltonian) and a reference with real amplitudes, SRQK with dt and with -dt, and MRSQK with determinants as references with dt and with -dt, find the same energies, and a target root exists in both or in none, at any Trotter number and whatever number of directions is dropped.", "quantifier": "all such Hamiltonians, references, times, Trotter numbers, numbers of states, target roots, eigensolvers meeting their contract", "why_tests_cant": "It relates pairs of runs for every Hamiltonian, time step and reference; tests use positive time steps only.", "anchors": ["src/qforte/qkd/srqk.py:SRQK.build_qk_mats_fast", "src/qforte/qkd/mrsqk.py:MRSQK.build_qk_mats_fast", "src/qforte/utils/trotterization.py:trotterize", "src/qforte/maths/eigsolve.py:canonical_geig_solve"]}
{"id": "C124", "title": "The way a Hamiltonian is written", "statement": "Two Hamiltonians that denote the same operator (terms in another order, a coefficient split over two terms with the same string, terms combined, the letters of a Pauli string in another order) give the same energies, gradients, pool gradients, PQE residuals and single-particle energies, and whole runs of UCCN-VQE, UCCN-PQE and QITE (with or without the Lanczos procedure) with any pool and options end in the same way: the same exception, or the same energies, amplitudes, circuit and counts (for QITE not the number of measured terms). Trotterised evolutions of the two differ by no more than their Trotter errors together, and in general they do differ.", "quantifier": "all pairs of Hamiltonians that denote the same operator, all ansatzes, pools, options, references, amplitudes, Trotter numbers", "why_tests_cant": "It relates pairs of runs for every Hamiltonian and every way of writing it; tests use one fixed list of terms.", "anchors": ["src/qforte/abc/algorithm.py:AnsatzAlgorithm.measure_energy", "src/qforte/abc/uccvqeabc.py:UCCVQE.measure_gradient", "src/qforte/ucc/uccnpqe.py:UCCNPQE.get_residual_vector", "src/qforte/ucc/uccnvqe.py:UCCNVQE.run", "src/qforte/ucc/uccnpqe.py:UCCNPQE.run", "src/qforte/computer.cc:direct_op_exp_val", "src/qforte/utils/trotterization.py:trotterize", "src/qforte/ite/qite.py:QITE.run"]}
