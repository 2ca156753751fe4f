# Formal model of evangelistalab/qforte in Lean 4

## 1. Conventions of the model

* **Numbers.** `double` is modelled by the exact reals `ℝ`, `std::complex<double>` by `ℂ` (Mathlib). Rounding, NaN and
  overflow of doubles are *not* modelled; every numerical threshold of the code (1e-16, 1e-14, 1e-12, 1e-10) *is* kept
  with its exact value and comparison operator. `M_PI`, `cos`, `sin`, `exp`, `sqrt`, `fmod` are the exact functions.
* **Integers.** `size_t` is `ℕ`, except where the property is about width (`QubitBasis` = `BitVec 64`, the `int`
  multiplier of `set_orb_spaces`, the `uint8` arithmetic of the tapering code).
* **Vectors** are `List`; `std::map` is a sorted association list; exceptions are values `Except Exc α`
  (`Exc.undefinedBehaviour` marks an out-of-range access of a `std::vector`, i.e. C++ UB).
* **Loops** with data independent bounds are modelled as the list of loop-variable values they visit, in order (written
  as the same nested while/for recursion), and the body is folded over that list.
* **What the model takes as parameters** (every theorem quantifies over them, under the stated contract):
  `Sampler` (`std::discrete_distribution`: an arbitrary sequence of drawn indices, or independent draws with the given
  weights in C78), `Schedule` (OpenMP: any partition and order of the iterations of a reduction), `SortOracle` /
  `DescSort` (`std::sort`, `numpy.argsort`: any sorted permutation), `NextPerm` (`std::next_permutation`: the next string in
  lexicographic order), `EigOracle` (`scipy.linalg.eig`), the lstsq result of DIIS, `ExpmOracle`
  (`scipy.sparse.linalg.expm_multiply`; contract `ExpmContract` = the exponential series). No theorem assumes that such an
  oracle exists silently: it is a variable, and its contract is a hypothesis.
* **Unbounded loops** are run with fuel and return `.diverges` when it is used up; theorems say `∃ N, ∀ fuel ≥ N, ...`.
* Python dictionaries are insertion-ordered association lists; binary numpy arrays are `BMat` over `ZMod 2`; complex numpy
  matrices are functions `ℕ → ℕ → ℂ` with explicit sizes. Python exceptions are values (`Exc.nameError`, `.typeError`, ...).
* `noncomputable` definitions are used because of `ℝ`/`ℂ`; they are nevertheless ordinary total functions mirroring the code.

## 2. Layers (lean/Verif/)

* `Spec/`   – the small independent specification; nothing in it refers to `Model/` algorithms (only to the data types `Gate`,
  `Circuit`, ... whose meaning it defines).
  `Bits` (bit operations), `Ops` (linear operators on amplitude functions `ℕ → ℂ`: `op1`, `op2`, `ctrlOp`, `proj`),
  `GateOp`/`GateDen` (the textbook matrix of every gate), `State`, `Inner` (inner products on `n` qubits), `CircuitOp`,
  `Pauli`, `OperatorOp` (meaning of circuits and qubit operators), `Fermion` (ladder operators), `SQOp` (meaning of
  second-quantised operators), `Exp` (`IsExp`: exponential of an operator by its power series), `DFT`, `Charge`,
  `Excitation`, `Organizer`, `Tapering`, `Compact`, `Skew`, `UCC`, `RealOp`.
* `Model/`  – the code, function by function, each definition citing file and lines.
* `Lemmas/` – helper lemmas.
* `Props/`  – the property theorems (named `C.._...`), each with an `example`/`C.._example` showing that a concrete,
  non-trivial case meets its hypotheses.

The bridge between model and specification is `vec : List ℂ → (ℕ → ℂ)` (amplitude of basis state `I`, 0 outside).

## 3. Trusted base

1. Lean 4.33.0's kernel.
2. The axioms `propext`, `Classical.choice`, `Quot.sound` only (section 6; `tools/axioms.py` reproduces the table).
3. Mathlib's definitions used in statements (`ℝ`, `ℂ`, `Module.End`, `HasSum`, `Nat.testBit`, `BitVec`, `HasDerivAt`,
   `Equiv.Perm.sign`, measures in C32) and the definitions of `Spec/`.
4. The faithfulness of the reading of /repo recorded in the comments of `Model/` (no extraction; nothing was executed).

### Modelled

| code | model |
|---|---|
| gate.h/.cc, make_gate.cc | Gate, Api (which gates a user can build) |
| circuit.h/.cc | Circuit (add/insert/remove/swap, parameters, adjoint, reversal, simplify, canonicalize, equality) |
| qubit_basis.h/.cc | QubitBasis |
| computer.h/.cc | Computer, ComputerOps, Measure (all apply paths, fast/safe, measurement, expectation values, OpenMP reductions) |
| sparse_tensor.h/.cc | Sparse |
| qubit_operator.cc | QubitOperator |
| qubit_op_pool.cc | QubitPool |
| sq_operator.cc, sq_op_pool.cc | SQOperator, SQPool, SQPool2 |
| find_irrep.cc, utils/state_prep.py, utils/symmetry helpers | StatePrep |
| utils/exponentiate.py, utils/trotterization.py | Expo |
| utils/qft.py | QFT |
| utils/transforms.py | Transforms |
| utils/spin_operators.py | Spin |
| utils/compact_excitation_circuits.py | Compact |
| utils/qubit_tapering.py | Tapering |
| utils/compute_matrix_element.py | MatrixElement |
| helper/advance_gates_helper.py | Helper (Toffoli, Fredkin) |
| abc/ansatz.py, abc/algorithm.py, abc/uccvqeabc.py | UCC, Penalty |
| ucc/uccnpqe.py | PQE |
| maths/optimizer.py | Jacobi |
| maths/eigsolve.py, helper/idx_org.py | GEig |
| qkd/srqk.py, qkd/mrsqk.py (build_qk_mats_fast), qkd/nt_srqk.py | Krylov, NtSrqk (run) |
| experiment/experiment.py | Experiment |
| qkd/srqk.py (matrix_element, build_qk_mats_realistic) | Hadamard |
| qpea/qpe.py | QPE |
| ite/qite.py | QITE (expansion pools, S, b, steps, evolution, QLanczos) |
| abc/qsdabc.py, qkd/srqk.py, qkd/mrsqk.py | QSD (common_run and the runs, without printing and condition numbers; eig is a contract) |
| ucc/spqe.py, abc/uccpqeabc.py: solve | SPQE (run, get_residual_vector, update_ansatz, conv_status; scipy's minimize and numpy's lstsq and random.choice are parameters; moment corrections, counters and printing left out) |
| ucc/adaptvqe.py | ADAPT (run, update_ansatz, solve; the optimizer is a parameter), AdaptCount (counters, table, banner numbers) |
| helper/io_helper.py: build_circuit, build_operator | IO (python's float() and complex() of a text are the parameter PyNum) |
| adapters/model_adapters.py, system/system_factory.py, utils/point_groups.py, adapters/molecule_adapters.py: create_external_mol | System (the parsed json is the input) |
| adapters/molecule_adapters.py: create_psi_mol after psi4's calculation | Psi (psi4's results are the input) |
| utils/symmetry_analysis.py: symmetry_check | Symmetry (the printed numbers are returned, print rounding left out) |
| `utils/moment_energy_corrections.py`, `build_orb_energies` (abc/ansatz.py) | `Model/Moments.lean`: serial build; printing left out; non-finite floats are `none` |
| constructors of `Algorithm` and `AnsatzAlgorithm`, `fill_pool` (abc/algorithm.py) | `Model/Algorithm.lean`: python values of the penalty argument as a sum type; printing, timings and file names left out |
| `UCCNVQE.run`, `UCCNPQE.run`, `solve`, `scipy_solve` | `Model/UccRun.lean`: `scipy.optimize.minimize` is a parameter with the contract that it returns as many amplitudes and their energy; printing, counters and noise left out |
| `MRSQK.run`, `build_refs`, `build_sa_refs`, `build_classical_CI_mats`, `build_sa_qk_mats_fast`, `diagonalize_each_step` | `Model/MRSQK.lean`: fast algorithm only; `scipy.linalg.eig` is a parameter; `nan` coefficients are `none`; printing left out |
| `circuit_to_latex` | `Model/Latex.lean`: entries of the wires, figures and the text of the file; the iteration order of the set of qubits is a parameter; evaluated on the circuit of `tests/test_circuit_to_latex.py` the model gives the reference file |
### Not modelled

Floating-point rounding; console printing (`print_*`, `matprint`) and timers (`timer`);
psi4/OpenFermion calls of `molecule_adapters`, `molecular_info`; scipy's optimizers (`minimize`);
user-defined Python subclasses; memory safety of C++ beyond the marked out-of-range accesses; aliasing (`c.add_circuit(c)`,
F25); performance.
## 4. Plan per property

How each property of properties.jsonl is modelled / proved:

* C01 `BitVec 64` model of QubitBasis, bit-extensionality.
* C02–C04 `makeGate` as the same if-chain on strings; case analysis; trigonometric identities; `Gate.adjoint`.
* C05–C10 `Computer` model; visited-index lists of the strided loops characterised by `testBit`; fold lemma for disjoint
  pair updates; composition in the ring `Module.End ℂ (ℕ → ℂ)`.
* C11–C13, C16, C17, C22 list refinement.
* C14, C15 `evaluate_gate_interaction` as the same decision tree on gate types; commutation proved in the operator ring;
  `simplify` as the same double loop; invariant: product of surviving gates is constant.
* C18–C21, C23, C47 Pauli words: stable insertion sort, contraction table, map as sorted assoc list; denotation in the ring.
* C24–C33, C60 Computer-level theorems via `vec`.
* C34–C37 permutation parity by the cycle-sorting loop invariant; JW by operator algebra; dyadic-Gaussian lattice
  argument for the intermediate thresholds.
* C38–C40 exponentials: `HasSum` of the exponential series, CNOT-staircase induction.
* C41, C42 QFT by induction over the block.
* C43–C46, C48–C50, C53, C57 lists, bits, permutations.
* C51, C52 organizer model. C54–C56 linear algebra over GF(2). C58 finite ring identities lifted to all states.
* C59 composition of the above. C61, C62 operator algebra.
* C63, C64 pools: exact contents (membership, multiplicity, order) for every reference; C65 acceptance condition of the parser.
* C66, C67 tapering: Clifford conjugation of Pauli words; explicit operator identity U H U = tapered form.
* C68–C70 pool → qubit operators → ansatz circuit: Jordan-Wigner correctness + exactness of Trotter for commuting terms.
* C71, C72 gradients: derivative of the energy function (`HasDerivAt`), parameter shift not used; refutations for F36–F39.
* C73 PQE residuals: projections of the similarity-transformed Hamiltonian. C74 penalty Hamiltonian. C75 Jacobi/DIIS loop.
* C76 generalized eigenvalue solver: matrix algebra over ℂ with `eig` as parameter.
* C77 Krylov matrices: inner products of Trotter states; NTSRQK with `expm_multiply` as parameter.
* C78 Experiment: perfect average; expectation and variance of the sampled average over independent Born draws.
* C79 Hadamard tests: the ancilla circuit evaluates ⟨ψm|V|ψn⟩; both routes of SRQK give the same matrices.
* C80 QPE: state before measurement by commuting the controlled evolutions past the Hadamards and inverting the transform; then every readout, the majority, the mode and the energies; refutations of the documented window and of the digit-wise majority.
* C81 QPE success probability: |amplitude| ≤ 1/(2·distance) and a telescoping bound on the tail; the floor in n_ancilla still leaves enough ancillas.
* C82 QITE: normal equations of the Gram matrix give the nearest step; invariant (Trajectory) by induction on the number of steps; descent by differentiating the Trotter product at 0. `scipy.linalg.lstsq` is any minimiser of |S x - b|.
* C83 Krylov energies: the canonical orthogonalisation makes an orthonormal basis of a subspace of the span, the eigenvalues are Rayleigh quotients; Courant-Fischer for the minimum. `scipy.linalg.eig` of a Hermitian matrix returns orthonormal eigenvectors in descending order (DescEig); without the order the claim is refuted.
* C84 QLanczos: C83 applied to the kept states of C82.
* C85 ADAPT-VQE: invariant of the scan (first maximum); zero amplitudes give an empty group in `commuting_grp_lex`, so the circuit is unchanged; induction over the iterations with the optimizer's contract; unitarity of the circuit for the bound; a nonzero derivative excludes a local minimum for the descent.
* C86 SPQE pool: bit-level enumeration = filter of the determinants (the masks split the binary digits by parity). C87 residuals: amplitude of `U†HUΦ` as an inner product, sign from `κ|R⟩ = ±|I⟩`.
* C88 SPQE: the sorted candidates are split where the running sum passes the threshold; zero amplitudes in front leave the circuit unchanged; induction over the macro-iterations.
* C89 text: a grammar of layouts (Spec/Text) and splitting lemmas. C90 TFIM: closed form of the term list. C91: characters as ±1 vectors, multiplication = xor checked on the finite tables, then induction on the list of orbitals.
* C92 external molecules: list sum = finite sum over index tuples; the Jordan-Wigner transform of a self-adjoint operator has real coefficients because simplified terms are unique (Lemmas/JWHerm).
* C93 frozen core: creation operators on the core kill the core state, annihilation operators kill it from the left; a normal-ordered two-body sum is split by core and active indices (Lemmas/Frozen), spin sums (Lemmas/FrozenSpatial).
- C94: the three moments from C29 and exactness of dyadic products (Lat), weights by a loop invariant over the determinants; odd registers by inversion of the program.
- C95: determinants by the fold of C86, denominators by C24/C29, the limit by C88_estimate; the wrong signs and the wrong irrep by theorem and example.
- C96: the accepted argument combinations as an inductive specification, equivalence with the constructor by cases; what the object holds; the preconditions of C70-C75 follow; the unchecked arguments by counterexample.
- C97: composition of C49/C63 (pools), C96 (construction), C70 (ansatz), C75 (Jacobi), C73 (excited determinants); the symmetry sector by a general lemma on operators that keep a quantum number and their exponentials.
- C98: selection by a sorting lemma on importances; configurations by the loop invariant `Configs`, with the enumeration of C45; references orthonormal by disjointness; energies by C83 on the Gram matrices of C77 and of the spin-adapted references.
- C99: loop invariant with a ghost grid of the gates on every wire; a lemma on circuits that agree on every wire (trace equivalence) gives the operator.
- C100: the register part of an operator becomes a bounded operator of Mathlib's Hilbert space; in that Banach algebra the error of one step is bounded by half of the commutators (fencing theorem for derivatives), then telescoping over the steps.
- C101: explicit amplitudes of the inverse transform for arbitrary families of states, Parseval for the finite Fourier transform, Cauchy-Schwarz against the eigenvector, and the Trotter bound of C100 for the powers of the evolution.
- C102: invariants of the loops of the circuit builders (API gates only, number of CNOT gates); letters of the strings of an excitation by conjugation with X and Z on each qubit and independence of Pauli strings; their number by the trace of the square of the excitation operator.
- C103: the terms that the simplifications of products and differences drop are collected in a residual operator with bounded coefficients; the expectation value of the commutator is the derivative of the energy along the flow of the excitation.
- C104: the file as a list of characters, handles as positions; induction over the callbacks and macro-iterations; the numbers written and their formatting are parameters.
- C105: the trajectory of C82; a product of rotations is within T of 1 and within T^2/2 of its first-order expansion (T the sum of the angles), by induction over the factors; the linear term is the slope of C82_descent.
- C106: the printing functions (str of gates, circuits, operators, states and pools; repr of gates) as functions to lists of characters; injectivity by unique decoding (cutting at the first character outside a class); fmt's {:+f} is a parameter with a contract.
- C107: invariant "real up to a phase" along the trajectory; right-hand sides of even strings vanish; the step depends on the pool only through the chosen strings.
- C108: conjugating the amplitudes multiplies a string by (-1)^(number of Y); linear independence of Pauli strings; simplification of a self-adjoint operator keeps terms in adjoint pairs.
- C109: every successful circuit application keeps the computer well formed, whatever the gates; the two builds are related by a simulation (equal values, computers equal up to operation counters) that is carried through the loops of the algorithms.
- C110: the ADAPT loop with its counters (`Model/AdaptCount.lean`) erases to the loop of C85; induction over the iterations with the list of iterations as a ghost; the optimizer and its reported costs are parameters.
- C111: the Jacobi loop with a count of the calls (`Model/JacobiCount.lean`) is the loop of C75 with the counts as a function of the number of iterations, by induction; the sizes of the vectors are an invariant of the DIIS extrapolation.
- C112: the objective (`Model/ResidualSq.lean`) is the weight of the excited determinants in `U† H U |R⟩`; different particle-hole excitations make different determinants, so the weight is at most the total without the reference component, which is the variance.
- C113: the counters (`Model/SpqeCount.lean`) are proved to erase to the run of `Model/SPQE.lean`, and each of them to be a sum over the list of solves of the run; the scipy route counts callbacks, which is stated as an inequality with its equality case.
- C114: a run changes only pool, operators and amplitudes of the object (induction over the iterations), and the next run overwrites them before it reads them; histories are the reflexive transitive closure of uses.
- C115: invariant of the penalty loop: real coefficients, strings on the register, even number of Y. The first simplification in the product drops a multiple of the identity only when the operator is in simplified form; the product then commutes and is self-adjoint and real, and the Pauli strings are independent. For other operators the claim is refuted (C115_untidy).
- C116: the returned roots are the Ritz values of the spanned space (C83); with nothing dropped the larger calculation spans a space containing the smaller one, and Cauchy interlacing, proved by counting dimensions, orders the roots index by index.
- C117: NTSRQK: matrix elements are exact when the coefficients are multiples of a number above the 1e-16 threshold (partial sums are Gaussian integers times that number), so the matrix commutes with the charge and the exponential series stays in its eigenspace. Trotter products commute with what commutes with each string; for the number of electrons this fails and the claim is refuted by a two-qubit instance (C117_trotter_refuted).
- C118: a permutation of bit positions induces a permutation of the basis states (through the bijection of numbers with finite sets of bits); gate operators commute with it because they refer to bits by name only. For disjoint qubits the state is a product function of the low and the high bits, gates act on one factor, and the inner product factorises.
- C119: the loop of do_qlanczos on the first k kept vectors is its own prefix; what a step keeps is appended, so a shorter evolution keeps a prefix; the Ritz energies of nested spans are compared through the variational characterisation of C84.
- C120: the operator gains c times the identity; Trotter states gain a phase, so the Gram matrices are congruent by a diagonal of phases and the Ritz problems differ by c; for the unitary ansatz ⟨Kψ, ψ⟩ of the constant vanishes in every residual, gradient and commutator. For QITE the refutation is proved on one qubit.
- C121: Trotter factors depend on the product of coefficient and time, so the states are equal and the Ritz problem is multiplied by a; residuals and gradients are linear in the Hamiltonian; for a QITE step the right-hand side and the matrix are compared entry by entry.
- C122: a permutation of the references permutes the blocks of the Gram matrices; the space kept by canonical_geig_solve is spanned by all eigenvectors above the threshold, so it is the same space, and the Ritz values in it are unique (interlacing both ways). The same argument removes from C120 the hypothesis that nothing is dropped.
- C123: the Trotter states at opposite times are complex conjugates; the Gram matrices are conjugates, so are the kept spaces, and a real Hamiltonian has the same Ritz values in a space and in its conjugate.
- C124: `apply_operator` and `direct_op_exp_val` see only the denoted operator of a Hamiltonian (C24, C29); every step of the runs that uses the Hamiltonian goes through them. For Trotterised evolutions: the error bound of C100 twice, and X + Z in its two orders as the counterexample.
Properties found false of the code are refuted by a theorem with a concrete witness and the strongest true variant is
proved under the suffix `_partial` (see section 5).

## 5. Findings (model = code, property false)

Numbers as in NOTES.md; where a theorem of the form `C.._refuted...` is named, the deviation is machine-checked.

* **F1** computer.cc:397 `op_0_1 == op_1_0 == 1.0` parses `(op01==op10)==1.0`: the "X-gate" swap path is taken for ANY anti-diagonal gate with equal off-diagonals. In exact arithmetic Rx(pi) (entries -i,-i) loses the phase. In doubles cos(pi/2)=6.1e-17 twice > 1e-16 so Case I is taken (luck). same at 549, 668 for 2-qubit.
* **F2** apply_matrix (computer.cc:56) conjugates the matrix (complex_prod = conj(a)*b).
* **F3** direct_gate_exp_val (937) reads new_coeff_ (always 0) => returns 0, and leaves state modified.
* **F4** direct_pauli_circ_exp_val: sign wrong for odd number of Y (uses <J|P|I> i.e. P^T). Used in OpenMP builds.
* **F5** rev_qft applies adjoint of 'reverse' = forward QFT.
* **F6** jw_helper: when the accumulated product becomes zero (repeated creation index) holder is empty and next operator is *added* fresh: jw({p,p},{q}) = a_q instead of 0.
* **F7** simplify threshold 1e-12: jw of >= 40 distinct ladder ops is silently 0 (2^-40 < 1e-12).
* **F8** canonicalize_pauli_circuit reads product left-to-right, apply_circuit is time-order: phase conj for repeated qubits.
* **F9** Gate == ignores matrix: all control_gate (label cU) with same target/control compare equal.
* **F10** remove_gates throws for pos2 == size: last gate can never be removed by range.
* **F11** set_parameters reads params[param_idx] before bounds check (UB if too short); not atomic on error.
* **F12** order_terms comparator not strict weak order (a.size()<a.size()).
* **F13** perfect_measure_circuit/measure_circuit treat "I" gates as Z.
* **F14** next_permutation starts at reference string: pool incomplete for non-aufbau references.
* **F15** set_orb_spaces int multiplier overflows at 31 bits.
* **F16** QubitOperator.sparse_matrix of empty operator = identity, apply_operator(empty) = 0.
* **F17** pauli_condense wrong for >=3 letters on one qubit.
* **F18** join_as_commutator computes [Op, term], header says [term, Op].
* **F19** control_gate of a 2-qubit gate uses upper-left block (identity for cX) ; set_parameter on parametrised cU throws.
* **F20** fill_pool(complete_qubit,0) loops (int < size_t wrap), nqb>=16 int overflow.
* **F21** trotterize_w_cRz: identity term phase not controlled.
* **F22** simplify not exception-safe: `.at` throws on Undefined gate types (cU) after earlier rewrites of gates_[pos2].
* **F23** a circuit simplified: involves only WF gates. evaluate_gate_interaction on cU throws out_of_range.
* **F24** exponentiate: repeated targets: adjacent -> cX(t,t) throws.
* **F25** c.add_circuit(c), insert_circuit(self), add_op(self): iterator invalidation, undefined behaviour in C++ (not modelled; copies in the model).
* **F26** (floating point only) A(theta) with cos theta rounding to 1.0.
* **F28** sa_SD pool uses the first nocc spatial orbitals whatever the reference's occupied orbitals are.
* **F29** get_ucc_jw_organizer does not conjugate the amplitude of T^dagger: not anti-Hermitian for complex amplitudes (C52_refuted_complex_amplitude).
* **F30** fermop_to_sq_excitation accepts e.g. a3^ a2 a1^ a0 (not normal ordered) and misreads it (C65_refuted_not_normal_ordered).
* **F31** find_Z2_symmetries when a product of X gates is a symmetry: the generator has no Z column, sigma_x keeps its initial 0, and (g + X_0)/sqrt2 is not unitary (C66_x_symmetry_counterexample: H = X_0).
* **F32** with 80 or more generators every coefficient of the tapering unitary (2^-40) is under the simplify threshold 1e-12 and the unitary becomes the empty operator (remark; C66 assumes at most 79).
* **F33** taper_operator needs tapered_qubits as a numpy array (its documentation says list): `pauli.target() > list` raises TypeError.
* **F34** compact_excitation_circuit (fermionic): index lists sorted in opposite directions (an odd number of ascending pairs in total) give exp(-theta (t - t^dagger)) (C61_order_refuted). Pools supply decreasing lists, so they are unaffected.
* **F35** compact_excitation_circuit (fermionic, shared index): creation=[g,p], annihilation=[r,g] (e.g. [1,0],[3,1]) places the cZ of the sign circuit on the shared orbital g, so the sign cancels and the result is wrong as soon as another orbital lies between p and r (C61_gsd_refuted).
* **F36** measure_gradient with pool type sa_SD: the ansatz applies the factors exp(t x_j kappa_j) of one element in order, the gradient undoes them in the same (not the reverse) order and uses the derivative sum_j x_j kappa_j outside the product; both are right only if the kappa_j of the element commute (triplet-coupled doubles do not). Theorem C71_sa_refuted: for two electrons in three orbitals and operator 3 of the real sa_SD pool (singlet-coupled double to two different virtuals), measure_gradient returns the derivative of energy_feval times cos(t/sqrt 2), so at t = sqrt2*2pi/3 it has the wrong sign. sa_SD is the default pool_type of ADAPT-VQE (adaptvqe.py:84).
* **F37** ansatz_circuit ignores the coefficient of the pool element, measure_gradient multiplies by it (C71_pool_coefficient); with several operators the undo circuit is exp(-t z kappa), not the inverse of the ansatz factor.
* **F38** trotter_number > 1: the ansatz is (prod_mu exp(t_mu kappa_mu / N))^N, but measure_gradient treats it as prod_mu exp(t_mu kappa_mu). Theorem C71_trotter_refuted: N = 2, E = 1 - sin(s)^2/2 stationary at s = pi/2, reported gradient entry 1.
* **F39** energy_feval is constant in an amplitude in a neighbourhood of 0 (threshold of simplify), so its derivative there is 0 while measure_gradient returns the exact derivative (C71_flat_at_zero).
* **F40** canonical_geig_solve(sort_ret_vals=True): sorted_X_prime permutes the columns of X_prime as well as those of C_prime, so get_qk_eigenvectors() is wrong whenever the sort permutes (C76_sorted_vectors_refuted); MRSQK uses these vectors to select references.
* **F41** canonical_geig_solve with dropped eigenvalues: U[i][j] is read with the index in the filtered list (C76_truncation_refuted).
* **F42** canonical_geig_solve rejects eigenvalues with large positive imaginary part only; negative ones pass.
* **F43** jacobi_solver: convergence is tested with the residual of the amplitudes before the last update; opt_maxiter = 0 raises UnboundLocalError (C75_no_iterations); a zero update with DIIS divides 0/0 (C75_exact_start).
* **F44** NTSRQK uses expm_multiply(start=0, stop=dt, num=nstates, endpoint=True): state m is evolved for m*dt/(nstates-1), not m*dt (C77_ntsrqk_refuted).
* **F45** MRSQK.build_qk_mats_fast sets phase1 = 1.0 only inside the loop over occupied orbitals: a vacuum first reference raises UnboundLocalError (C77_mrsqk_vacuum), a later one reuses a stale phase.
* **F46** MRSQK.build_refs uses the undefined name initial_ref (NameError when the reference is not among the selected determinants).
* **F47** MRSQK.build_sa_refs: val = 0.0 is reset inside the inner loop, so only the last coefficient of a configuration counts.
* **F48** MRSQK.build_refs: Cprime uses conj(evecs)^T instead of evecs^T.
* **F49** trotter_order is never passed to trotterize by SRQK/MRSQK; SRQK with nstates = 0 raises NameError.
* **F50** QPE.run documents that the eigenvalue must be within +/-2 pi/t of the guess; an eigenvalue further than pi/t from it is never returned (C80_window_refuted). trotter_order is ignored.
* **F51** QPE.run takes the majority digit by digit: the final phase and energy may belong to a phase that no run produced, e.g. readouts 110, 101, 011 give 111 (C80_majority_run).
* **F52** QITE.do_qite_step: when 1 - 2 db <H> <= 0 the vector b is nan; with sparseSb (the default) nothing is selected and every following step silently leaves the state unchanged, without sparseSb lstsq raises ValueError (C82_stall).
* **F53** canonical_geig_solve relies on scipy.linalg.eig returning the overlap eigenvalues in descending order: it keeps the first columns, as many as there are eigenvalues above the threshold. scipy does not sort, and for another order a reported energy can lie below the exact ground state (C83_order_refuted).
* **F54** QSD.common_run indexes the eigenvalues with target_root although directions may have been dropped: a root beyond the numerical rank raises IndexError (C83_common_run). QITE with db = 0 or lanczos_gap = 0 raises ZeroDivisionError (C82_zero).
* **F55** QITE.build_expansion_pool keeps the strings with an odd number of Y gates (C82_pool_*), as its first comment says; the explanation after it has the parity reversed: it is the elements of b for an even number of Y gates that vanish for real Hamiltonians.
* **F56** ADAPTVQE: if the reference state already is converged (gradient norm below avqe_thresh in the first iteration, e.g. an exact Hartree-Fock state), conv_status reads energies[-1] of an empty list and run raises IndexError instead of returning the reference energy (C85_converged, C85_returns).
* **F57** ADAPTVQE add_equiv_ops: the "second largest" gradient is only the previous record of the scan, so an operator after the largest one with exactly the same gradient is never added, and if all gradients before the largest one vanish (e.g. gradients [1, 1]) the call raises UnboundLocalError (C85_equiv, C85_equiv_example).
* **F58** ADAPTVQE with avqe_thresh = 0 and vanishing gradients (or an empty pool) raises UnboundLocalError (C85_stationary); adapt_maxiter <= 0 still makes one iteration (C85_run).
* **F59** SPQE: the test spqe_iter > spqe_maxiter is made after the counter's increment and before the solve, so spqe_maxiter + 1 macro-iterations are made (C88_run); with spqe_maxiter <= 0 one.
* **F60** SPQE: if the estimate is below spqe_thresh in the first macro-iteration (for instance because the requested irrep is that of no determinant) energies[-1] of an empty list raises IndexError (C88_returns, C88_example).
* **F61** SPQE with a finite M_omega never returns normally: conv_status is not called, so neither spqe_thresh nor spqe_maxiter ends the run, and when a single determinant is measured the code reads self._results[-1], a list nothing is ever appended to (C88_sampled, C88_sampled_single). It also compares coefficient indices with pool indices and looks up determinants outside the pool (KeyError).
* **F62** SPQE: the "operator pool has been drained" exit can only be reached with spqe_thresh = 0, because the norm over no operators is 0 (C88_update); if the squared norm equals spqe_thresh^2 exactly, nothing is added and the run repeats the same solve until spqe_maxiter (C88_progress).
* **F63** build_circuit: the documented word [action]_[target]_[control]_[parameter] is read as a rotation on the target whose parameter is the control index, so cR and cRz words raise invalid_argument (C89_controlled_rotation, C89_controlled_rotation_witness).
* **F64** create_external_mol: only the spelling C1 is treated as the trivial group; a file with point_group c1 and no symmetry list is a KeyError although irreps_of_point_groups accepts c1 (C92_lower_case).
* **F65** symmetry_check never returns on an odd number of qubits: the table of Sz values holds odd multiples of 1/4, so the lookup of the first determinant (Sz = 0) raises KeyError if nothing failed earlier (C94_odd).
* **F66** build_orb_energies decides whether spin orbital i is occupied by i < sum(ref) instead of ref[i]: for a reference that does not fill the lowest spin orbitals the energies of all orbitals where the two differ have the wrong sign (C95_orb_energies, C95_orb_energies_wrong).
* **F67** construct_moment_space keeps the determinants of irrep 0, not those of the irrep of the reference: for a reference of another irrep no determinant that a symmetric Hamiltonian and ansatz can reach is included, so the corrections are zero however bad the ansatz (C95_wrong_irrep, C95_wrong_irrep_example).
* **F68** compute_moment_energies adds the corrections to _curr_energy, the energy of the last parameters energy_feval was called with (algorithm.py:473), while the moments use the ansatz of the accepted parameters; after a derivative-free or line-search minimizer the two need not belong together.
* **F69** Algorithm.__init__ does not compare the reference circuit of state_prep_type 'unitary_circ', nor AnsatzAlgorithm.__init__ the penalty operators, with the number of qubits of the Hamiltonian: both are accepted and the first energy evaluation indexes outside the state vector (C96_circuit_unchecked, C96_penalty_unchecked).
* **F70** The entries of an occupation-list reference are not checked to be 0 or 1: [7, 0] is accepted and prepares the same state as [1, 0], while sums over the list count 7 electrons (C96_occupation_unchecked).
* **F71** Trotterizable (abc/mixin.py) stores and prints trotter_order but it is never passed to trotterize: asking for order 2 silently runs the first-order formula.
* **F72** The Jacobi solver of UCCNVQE and ADAPTVQE divides the energy gradient, which is twice the residual, by the MP denominators of the residual equations: every step is twice the quasi-Newton step, so without DIIS the iteration overshoots (maths/optimizer.py:70-73).
* **F73** With the default diagonalize_each_step=True SRQK, NTSRQK and MRSQK raise IndexError for every target_root other than 0 and -1: the first step has one eigenvalue (C98_each_step, C98_srqk).
* **F74** MRSQK.build_refs squares only the first _ninitial_states rows of the basis; when SRQK drops directions the remaining rows enter the importances unsquared, as complex amplitudes (cPrimeSqMod, C98_select).
* **F75** MRSQK.build_sa_refs raises IndexError if the 2d determinants span fewer than d configurations (C98_sa_refs); a configuration on which the CI root vanishes gives nan coefficients and the run fails with ValueError (C98_run_sa).
* **F76** circuit_to_latex: the test for a full figure looks only at target and control of a gate; a two-qubit gate across a full qubit makes the figure deeper than max_circuit_depth_per_tikz, and as the depth is compared with ==, no new figure is ever begun afterwards (C99_depth_refuted).
* **F77** circuit_to_latex writes the rows in the iteration order of a Python set, which is ascending only if the qubit numbers are smaller than the hash table: for the qubits 7, 8, 9 the rows are 7, 9, 8 and the controls point to wrong rows (C99_order_refuted). A circuit without gates raises ValueError and two-qubit gates across unused qubits raise KeyError (C99_refuses), leaving an incomplete file.
* **F78** MRSQK.run with diagonalize_each_step=False never sets _n_cnot after the preliminary SRQK calculation: "Number of CNOT gates in deepest circuit" is that of SRQK (4 instead of 8 for Z0Z1 with trotter_number 2 after trotter_number_o 1, C102_mrsqk_example).
* **F79** UCCVQE.fill_commutator_pool ignores qubit_excitations: the commutators are always those of the fermionic excitations, so with qubit_excitations=True the gradients measured with them are not those of the ansatz (about -2 instead of 2 in C103_refuted).
* **F80** helper get_op_from_basis_idx builds an excitation and then returns None for every input (idx_org.py:39-111; not modelled).
* **F81** UCCVQE.report_iteration with print_summary_file=True writes the header instead of the line of the iteration, and fails with UnboundLocalError in the second iteration, as header is assigned only in the first (C104_vqe_refuted); so UCCN-VQE and ADAPT-VQE with a SciPy optimizer cannot be used with a summary file (C104_adapt_refuted).
* **F82** The header that SRQK writes to summary.dat lacks the # of the other algorithms; SRQK and NTSRQK write no summary file unless diagonalize_each_step is set (C104_srqk).
* **F83** SPQE with a SciPy optimizer: report_iteration truncates summary.dat while run() has it open, so the header and earlier lines are lost and later lines are written over the table of the minimization (C104_spqe_refuted, C104_spqe_last).
* **F84** Gate.str and Circuit.str omit the parameter, so that circuits with different rotation angles, and different operators, print the same (C106_angles).
* **F85** ADAPTVQE.get_num_ham_measurements and get_num_commut_measurements add the totals to the stored counters at every call; the banner of run calls them once, so that the user's first call returns twice the number (C110_ham). With the Jacobi optimizer the first is always 0; the last scan of a converged run is not counted (C110_commut).
* **F86** ADAPTVQE.run switches analytic gradients off only for the lower-case names nelder-mead, powell, cobyla; with scipy's own spelling (Nelder-Mead, ...) the result has no njev and the run ends with AttributeError after the optimization (hypothesis Reports of C110_returns).
* **F87** With a scipy optimizer PQE and SPQE compute the number of Pauli measurements from the calls of the optimizer's callback, not from the residual evaluations: it undercounts whenever the optimizer evaluates the objective more than once per iteration (C113_scipy). Also, summary.dat numbers the SPQE iterations from 1, the printed table from 0 (C113_run).
* **F88** A penalty operator that is not in simplified form can make the penalty Hamiltonian non-Hermitian: operator_product simplifies its left factor only, so a coefficient below 1e-12 is dropped on one side (100 Z0 + 1e-13 X0 leaves 1e-11 i Y0; C115_untidy).
* **F89** SRQK and MRSQK can report energies below the lowest energy of the sector of the reference: the Trotter factors of a number-conserving Hamiltonian need not conserve the number of electrons (H = X0X1 - 2 Z0 + Y0Y1, dt = pi/4: the two-electron reference has energy 2, the only one in its sector, and two states give at most -2; C117_trotter_refuted). NTSRQK does not.
* **F90** QITE depends on the zero of energy (src/qforte/ite/qite.py:305-326): build_b divides by sqrt(1 - 2 db E), so a constant c in the Hamiltonian rescales every step, and with 1 - 2 db (E + c) <= 0 the sparse path drops every operator and the run silently ends in the reference state (C120_qite_rhs, C120_qite_stalls, C120_qite_refuted).
* **Others** rank-1 with shared index raises IndexError; rank >= 3 with a shared index uses the wrong control polarity; exponentiate_pauli_string raises TypeError on non-empty all-identity strings; the Python QubitOperator.simplify binding has no default argument; direct_pauli_circ_exp_val with no qubits and no gates is undefined; ref_to_basis_idx([]) raises; taper_reference needs descending order; set_orb_spaces of odd length throws after a partial update; set_terms appends; set_op_coeffs partially updates before throwing; the total_spin operators with odd n touch orbital n; get_jw_organizer(combine=False) returns a list of organizers; construct_parity_check_matrix sets (does not xor) bits, so it needs at most one letter per qubit.

## 6. Theorems and axioms

All names below are in namespace `QF`.

**propext** (2): `QubitBasis.C01_index_ofNat`, `C45_example`

**no axioms** (2): `C57_descending_needed`, `C57_example`

**propext, Quot.sound** (8): `QubitBasis.C01_get_bit`, `QubitBasis.C01_flip_bit`, `C45_value`, `C45_perm`, `C45_append`, `C45_out_of_range`, `C57_taper`, `C57_length`

**propext, Classical.choice, Quot.sound** (736): `QubitBasis.C01_set_bit`, `QubitBasis.C01_laws`, `QubitBasis.C01_str_injective`, `C02_unitary`, `C02_accepts`, `C02_python_overloads`, `C02_control_of_two_qubit_gate_not_unitary`, `C03_normalisation`, `C04_matrix`, `C04_inverse`, `C04_rebuild`, `C05_apply_gate_safe`, `C06_fast_one_qubit_partial`, `C06_hypothesis_named_gates`, `C06_swap_branch`, `C07_fast_two_qubit_partial`, `C07_hypotheses_named_gates`, `C08_rx_pi_differs`, `C08_fast_eq_safe_partial`, `C08_hypotheses_constant_gates`, `C08_apply_circuit_error`, `C08_apply_circuit_safe_error`, `C08_fast_vs_safe_partial`, `C08_fastok_api`, `C09_inner_product_partial`, `C09_inner_product_error_partial`, `C10_adjoint_order`, `C10_adjoint_undoes_partial`, `C10_adjoint_undoes_error_partial`, `C11_edit`, `C11_history`, `C11_remove_gates_never_removes_last`, `C12_get_parameters`, `C12_set_parameters_partial`, `C12_too_many`, `C12_too_few`, `C12_round_trip`, `C12_set_parameter`, `C12_cU_not_settable`, `C12_not_atomic`, `C13_circuit_num_qubits`, `C13_operator_num_qubits`, `C14_simplify`, `C14_simplify_total`, `C14_execution_partial`, `C14_cU_throws`, `C15_interaction_sound`, `C15_interaction_total`, `C15_flag_symmetric`, `C16_count`, `C16_additive`, `C16_adjoint`, `C17_gate_eq_iff`, `C17_refl_symm`, `C17_circuit_eq_iff`, `C17_equal_matrices`, `C17_eq_ignores_matrix`, `C17_not_transitive`, `C17_computer_eq`, `C17_computer_congr`, `C17_computer_example`, `C18_canonicalize`, `C18_non_pauli_raises`, `C18_empty`, `C18_example`, `C19_execution`, `C19_distinct`, `C19_repeated_differs`, `C20_simplify`, `C20_simplify_keep`, `C20_normal_form`, `C20_idempotent`, `C20_simplify_execution`, `C20_non_pauli_raises`, `C20_example`, `C21_operator_product`, `C21_self_product`, `C22_add`, `C22_mult_coeffs`, `C22_set_coeffs`, `C23_iff`, `C23_complete`, `C23_sound`, `C23_cutoff`, `C23_comparator_not_weak_order`, `C23_no_reorder`, `C24_apply_operator_error`, `C24_apply_operator`, `C24_apply_pauli_operator`, `C24_linear`, `C24_empty`, `C25_hermitian`, `C25_gate`, `C25_gate_exact`, `C25_out_of_range`, `C25_circuit`, `C25_pauli_circuit`, `C26_matrix_vector`, `C26_apply_operator_sparse`, `C26_sparse_vs_apply_operator`, `C26_single_term`, `C26_empty_operator`, `C27_conjugates`, `C27_real_matrix_partial`, `C27_refuted`, `C27_too_small`, `C28_direct_circ`, `C28_direct_op`, `C28_direct_oppl`, `C28_direct_idxd_oppl`, `C28_direct_oppl_w_mults`, `C28_measure_circuit`, `C28_measure_readouts`, `C28_perfect_measure`, `C29_direct_circ`, `C29_direct_circ_error`, `C29_direct_op_any`, `C29_direct_op`, `C29_direct_op_error`, `C29_direct_op_pauli`, `C29_direct_oppl`, `C29_direct_idxd_oppl`, `C29_idxd_out_of_range`, `C29_direct_oppl_w_mults`, `C29_parallel_value`, `C29_builds_agree_partial`, `C30_value`, `C30_direct_pauli_partial`, `C30_schedule_independent`, `C30_rejects`, `C30_refuted`, `C31_perfect_measure`, `C31_identity_gate_measured_as_Z`, `C32_measure_pm_one`, `C32_readout_bits`, `C32_outcome_possible`, `C32_born_rule`, `C32_readouts_support`, `C32_z_readouts_fast`, `C33_returns_zero`, `C33_refuted`, `C34_permutation_phase`, `C34_only_permutations`, `C34_composition`, `C34_example`, `C35_canonical_order`, `C35_simplify`, `C35_normal_form`, `C35_sort_independent`, `C35_example`, `C35_edit`, `C35_set_coeffs`, `C35_lat`, `C36_jordan_wigner_partial`, `C36_qubit_excitation_partial`, `C36_example`, `C36_exact_dyadic_partial`, `C36_exact_partial`, `C36_refuted_repeated_index`, `C36_refuted_qubit_sign`, `C36_refuted_forty`, `C37_anticommutation`, `C38_exponential`, `C38_returns`, `C38_identity_letters_raise`, `C38_real_part`, `C38_example`, `C38_repeated_qubit_raises`, `C39_controlled_partial`, `C39_refuted_identity`, `C39_example`, `C39_trotterize_w_cRz_partial`, `C40_trotterize`, `C40_order`, `C40_example`, `C41_circuit`, `C41_basis_state`, `C41_qft`, `C41_example`, `C42_rev_qft_negates`, `C42_one_qubit_partial`, `C42_refuted`, `C43_prepares`, `C43_ref_of_index`, `C43_index_of_ref`, `C43_empty_raises`, `C43_example`, `C44_eq_dets`, `C44_example`, `C44_open_shell`, `C45_cancel`, `QubitOpPool.C46_complete_qubit`, `QubitOpPool.C46_cqoy`, `QubitOpPool.C46_zero_qubits_diverges`, `QubitOpPool.C46_large_and_invalid`, `QubitOpPool.C46_example`, `QubitOpPool.C47_join_right`, `QubitOpPool.C47_join_right_lazy`, `QubitOpPool.C47_join_left`, `QubitOpPool.C47_join_commutator`, `QubitOpPool.C47_square`, `QubitOpPool.C47_commutator_exact`, `QubitOpPool.C47_refuted_commutator_order`, `QubitOpPool.C47_example`, `QubitOpPool.C47_set_coeffs`, `QubitOpPool.C47_set_terms`, `SQOpPool.C48_pool_symmetries`, `SQOpPool.C49_contents`, `SQOpPool.C49_complete_aufbau_partial`, `SQOpPool.C49_distinct`, `SQOpPool.C49_refuted_non_aufbau`, `SQOpPool.C49_too_large`, `SQOpPool.C49_example`, `SQOpPool.C50_odd_raises`, `SQOpPool.C50_orbital_spaces`, `SQOpPool.C50_reference_integer_partial`, `SQOpPool.C50_refuted_int_overflow`, `SQOpPool.C50_example`, `Organizer.C51_condense_partial`, `Organizer.C51_example`, `Organizer.C51_refuted_three_letters`, `Organizer.C51_combine`, `Organizer.C51_join`, `Organizer.C51_commutator`, `Organizer.C52_single_term`, `Organizer.C52_agree_partial`, `Organizer.C52_sum`, `Organizer.C52_ucc`, `Organizer.C52_adjoint`, `Organizer.C52_ucc_antihermitian`, `Organizer.C52_refuted_complex_amplitude`, `Organizer.C52_example`, `Organizer.C53_round_trip`, `Organizer.C53_invalid_letter`, `Organizer.C53_operator_round_trip`, `Organizer.C53_operator`, `Organizer.C53_example`, `Taper.C54_kernel_basis`, `Taper.C54_example`, `Taper.C55_commutation`, `Taper.C55_example`, `Taper.C56_generators`, `Taper.C56_pairs`, `Taper.C56_kernel_iff`, `C58_toffoli`, `C58_fredkin`, `C58_run`, `C58_example`, `C58_repeated_raises`, `C59_matrix_element_partial`, `C59_matrix_element_error_partial`, `C59_example`, `C60_counters`, `C60_counters_safe`, `C60_init`, `C60_null_state`, `C60_reset`, `C60_set_state`, `C60_history`, `C60_example`, `C61_disjoint`, `C61_gsd`, `C61_gsd_qubit`, `C61_gsd_refuted`, `C61_gsd_example`, `C61_sorted`, `C61_qubit`, `C61_order_refuted`, `C61_order_example`, `C61_errors`, `C62_spin_z`, `C62_raising`, `C62_lowering`, `C62_spin_squared`, `SQOpPool.C63_contents`, `SQOpPool.C63_symmetries`, `SQOpPool.C63_sign`, `SQOpPool.C63_example`, `SQOpPool.C63_invalid_name`, `C64_halves`, `SQOpPool.C64_contents`, `SQOpPool.C64_spin_adapted`, `SQOpPool.C64_open_shell`, `SQOpPool.C64_example`, `Organizer.C65_accepts_iff`, `Organizer.C65_normal_ordered`, `Organizer.C65_refuted_not_normal_ordered`, `Taper.C66_unitary`, `Taper.C66_small`, `Taper.C66_example`, `Taper.C66_x_symmetry_counterexample`, `Taper.C67_taper`, `Taper.C67_sector`, `Taper.C67_errors`, `Taper.C67_hamiltonian`, `Taper.C67_example`, `C69_commuting_exact`, `C69_excitation`, `C69_example`, `C68_commuting_grp_lex`, `C68_combine_no_effect`, `C68_unique_lex`, `C68_invalid_order`, `C68_qubit_op_pool`, `C68_example`, `C70_sa_SD`, `C70_reference`, `C70_sa_example`, `C70_sa_compact`, `C70_sa_compact_energy`, `C70_sa_energy`, `C70_ansatz`, `C70_exact`, `C70_used`, `C70_exact_used`, `C70_used_energy`, `C70_energy`, `C70_energy_parallel`, `C70_energy_used`, `C70_compact`, `C70_compact_energy`, `C70_compact_example`, `C71_sa_compact`, `C71_sa_commuting`, `C71_sa_refuted`, `C71_sa_example`, `C71_compact`, `C71_compact_of_feval`, `C71_compact_example`, `C71_gradient`, `C71_default`, `C71_gradient_of_feval`, `C71_flat_at_zero`, `C71_no_amplitudes`, `C71_pool_coefficient`, `C71_example`, `C71_last_entry`, `C71_trotter_refuted`, `C72_value`, `C72_excitations`, `C73_excited_dets`, `C73_residual`, `C73_residual_used`, `C73_real`, `C73_real_used`, `C73_sa_SD`, `C73_initialize`, `C73_initialize_keeps`, `C73_mp_denominator`, `C73_example`, `C74_penalty`, `C74_eigenstate`, `C74_refused`, `C74_example`, `C75_run`, `C75_plain`, `C75_diis_normalised`, `C75_diis`, `C75_no_iterations`, `C75_exact_start`, `C75_example`, `C75_length`, `C76_solves`, `C76_truncated`, `C76_sorted_idxs`, `C76_sorted_values`, `C76_sorted_vectors_partial`, `C76_sorted_vectors_refuted`, `C76_truncation_refuted`, `C76_example`, `C77_srqk`, `C77_commuting`, `C77_mrsqk`, `C77_mrsqk_vacuum`, `C77_ntsrqk`, `C77_ntsrqk_refuted`, `C77_example`, `C78_perfect`, `C78_prepare_each_time`, `C78_no_samples`, `C78_statistics`, `C78_bound`, `C78_definite`, `C78_ideal_sampler_exists`, `C78_example`, `C79_matrix_element`, `C79_realistic`, `C79_example`, `C80_state`, `C80_energy`, `C80_energy_window`, `C80_window_refuted`, `C80_run`, `C80_exact`, `C80_eigenstate`, `C80_example`, `C80_majority_refuted`, `C80_majority_run`, `C81_success`, `QiteAlg.C82_descent`, `QiteAlg.C82_stall`, `QiteAlg.C82_example`, `QiteAlg.C82_pool_particle_hole`, `QiteAlg.C82_pool_gsd`, `QiteAlg.C82_pool_qubit`, `QiteAlg.C82_pool_refused`, `QiteAlg.C82_evolve`, `QiteAlg.C82_run`, `QiteAlg.C82_variational`, `QiteAlg.C82_zero`, `C83_ntsrqk`, `C83_ntsrqk_slow`, `C83_ntsrqk_example`, `C83_common_run`, `C83_srqk`, `C83_mrsqk`, `C83_ritz`, `C83_variational`, `C83_optimal`, `C83_order_refuted`, `QiteAlg.C84_run`, `QiteAlg.C84_example`, `Adapt.C85_select`, `Adapt.C85_converged`, `Adapt.C85_stationary`, `Adapt.C85_equiv`, `Adapt.C85_equiv_example`, `Adapt.C85_cumulative`, `Adapt.C85_example`, `Adapt.C85_neutral`, `Adapt.C85_neutral_energy`, `Adapt.C85_run`, `Adapt.C85_energy`, `Adapt.C85_bounds`, `Adapt.C85_returns`, `Adapt.C85_share`, `Adapt.C85_descent`, `Spqe.C86_pool`, `Spqe.C86_complete`, `Spqe.C86_excites`, `Spqe.C86_symmetric`, `Spqe.C86_like_fill_pool`, `Spqe.C86_example`, `Spqe.C87_residual`, `Spqe.C87_sign`, `Spqe.C87_real`, `Spqe.C87_example`, `Spqe.C88_estimate`, `Spqe.C88_example`, `Spqe.C88_run`, `Spqe.C88_bound`, `Spqe.C88_returns`, `Spqe.C88_neutral`, `Spqe.C88_neutral_energy`, `Spqe.C88_sampled`, `Spqe.C88_sampled_single`, `Spqe.C88_update`, `Spqe.C88_progress`, `C89_build_circuit_partial`, `C89_controlled_rotation`, `C89_controlled_rotation_witness`, `C89_negative_index`, `C89_build_operator`, `C89_example`, `C90_tfim`, `C90_parity`, `C90_reference_energy`, `C90_factory`, `C90_factory_all`, `C90_example`, `C91_irreps`, `C91_find_irrep`, `C91_char_table`, `C91_example`, `C92_hamiltonian`, `C92_hermitian`, `C92_reference`, `C92_irreps`, `C92_returns`, `C92_lower_case`, `C92_example`, `C93_hamiltonian`, `C93_hermitian`, `C93_hf_energy`, `C93_reference`, `C93_electrons`, `C93_example`, `C94_report`, `C94_consistent`, `C94_sharp`, `C94_odd`, `Moments.C95_energies`, `Moments.C95_limit`, `Moments.C95_exact`, `Moments.C95_space`, `Moments.C95_orb_energies`, `Moments.C95_orb_energies_partial`, `Moments.C95_independent`, `Moments.C95_wrong_irrep`, `Moments.C95_wrong_irrep_example`, `Moments.C95_orb_energies_wrong`, `Moments.C95_example`, `C96_accepts`, `C96_refuses`, `C96_object`, `C96_ready`, `C96_state`, `C96_penalty_accepts`, `C96_penalty_refuses`, `C96_ansatz`, `C96_hamiltonian`, `C96_irrep`, `C96_circuit_unchecked`, `C96_penalty_unchecked`, `C96_occupation_unchecked`, `C96_example`, `C97_pqe_state_prep`, `C97_pqe`, `C97_pqe_jacobi`, `C97_pqe_optimizer`, `C97_example`, `C97_particle_hole`, `C97_gsd`, `C97_invalid_pool`, `C97_vqe`, `C97_vqe_bounds`, `C97_vqe_returns`, `C98_each_step`, `C98_srqk`, `MrsqkAlg.C98_select`, `MrsqkAlg.C98_select_errors`, `MrsqkAlg.C98_configs`, `MrsqkAlg.C98_ci_mat`, `MrsqkAlg.C98_sa_refs`, `MrsqkAlg.C98_sa_mats`, `MrsqkAlg.C98_sa_mats_nan`, `MrsqkAlg.C98_bad_options`, `MrsqkAlg.C98_preliminary`, `MrsqkAlg.C98_run_sa`, `MrsqkAlg.C98_run_dets`, `MrsqkAlg.C98_single_reference`, `Latex.C99_drawing`, `Latex.C99_refuses`, `Latex.C99_depth_refuted`, `Latex.C99_order_refuted`, `C100_error`, `C100_converges`, `C100_states`, `C100_srqk`, `C100_example`, `C101_state`, `C101_distribution`, `C101_overlap`, `C101_example`, `C102_pauli`, `C102_trotter`, `C102_compact`, `C102_measures`, `C102_srqk`, `C102_mrsqk`, `C102_mrsqk_stale`, `C102_mrsqk_example`, `C102_strings`, `C102_ansatz`, `C102_ansatz_compact`, `C102_reported`, `C102_saves`, `C102_compact_le`, `C102_example`, `C103_pool`, `C103_gradients`, `C103_agrees`, `C103_refuted`, `C103_example`, `C103_parallel`, `C103_parallel_example`, `C104_lanczos`, `C104_lanczos_example`, `C104_pqe`, `C104_untouched`, `C104_vqe_refuted`, `C104_adapt_refuted`, `C104_macro`, `C104_qite`, `C104_ntsrqk`, `C104_srqk`, `C104_spqe_refuted`, `C104_spqe_last`, `C104_example`, `QiteAlg.C105_step`, `QiteAlg.C105_lowers`, `QiteAlg.C105_run`, `QiteAlg.C105_example`, `Print.C106_circuit`, `Print.C106_angles`, `Print.C106_operator`, `Print.C106_pauli`, `Print.C106_sq`, `Print.C106_computer`, `Print.C106_example`, `Print.C106_format`, `Print.C106_repr`, `Print.C106_sqpool`, `Print.C106_qubitpool`, `Print.C106_pool_example`, `Print.C106_repr_angles`, `C107_rhs_zero`, `QiteAlg.C107_chosen`, `QiteAlg.C107_step_real`, `QiteAlg.C107_real`, `QiteAlg.C107_evolve`, `QiteAlg.C107_nearest`, `QiteAlg.C107_pools`, `QiteAlg.C107_run`, `QiteAlg.C107_example`, `C108_jordan_wigner`, `C108_psi`, `C108_external`, `C108_parallel`, `C108_parallel_external`, `C108_qite`, `C108_example`, `C109_energy`, `C109_orb_energies`, `C109_moments`, `C109_uccnvqe`, `C109_uccnpqe`, `C109_adapt`, `C109_spqe`, `C109_qite_evolve`, `C109_qite`, `C109_molecule`, `C109_molecule_external`, `C109_odd`, `C109_example`, `Adapt.C110_run`, `Adapt.C110_ham`, `Adapt.C110_returns`, `Adapt.C110_commut`, `Adapt.C110_example`, `C111_jacobi`, `C111_uccnvqe`, `C111_uccnpqe`, `C111_example`, `C112_objective`, `C112_eigenstate`, `C112_run`, `C112_returns`, `C112_example`, `Spqe.C113_run`, `Spqe.C113_jacobi`, `Spqe.C113_scipy`, `Spqe.C113_returns`, `Spqe.C113_example`, `Adapt.C114_adapt`, `Adapt.C114_adapt_twice`, `Adapt.C114_adapt_example`, `Spqe.C114_spqe`, `Spqe.C114_spqe_twice`, `Spqe.C114_spqe_example`, `C115_penalty`, `C115_spin`, `C115_builds`, `C115_molecule`, `C115_untidy`, `C115_example`, `C116_run`, `C116_srqk`, `C116_mrsqk`, `C116_ntsrqk`, `C116_example`, `C117_ntsrqk`, `C117_srqk`, `C117_mrsqk`, `C117_trotter_refuted`, `C117_example`, `C118_gate`, `C118_relabel`, `C118_register`, `C118_additive`, `C118_example`, `QiteAlg.C119_times`, `QiteAlg.C119_lines`, `QiteAlg.C119_longer`, `QiteAlg.C119_run`, `QiteAlg.C119_example`, `C120_srqk_outcome`, `C120_mrsqk_outcome`, `C120_example`, `C120_pqe_example`, `C120_ritz`, `C120_srqk`, `C120_mrsqk`, `QiteAlg.C120_qite_rhs`, `QiteAlg.C120_qite_stalls`, `QiteAlg.C120_qite_refuted`, `C120_energy`, `C120_residual`, `C120_gradient`, `C120_pool_gradient`, `C120_jacobi`, `C120_pqe`, `C121_srqk_outcome`, `C121_mrsqk_outcome`, `C121_ritz`, `C121_srqk`, `C121_mrsqk`, `QiteAlg.C121_qite_step`, `C121_example`, `C121_jacobi`, `C121_pqe`, `C121_pqe_example`, `C121_energy`, `C121_residual`, `C121_update`, `C121_gradient`, `C121_pool_gradient`, `C122_mrsqk_outcome`, `C122_example`, `C122_ritz`, `C122_mrsqk`, `C123_ritz`, `C123_srqk`, `C123_mrsqk`, `C123_example`, `C124_energy`, `C124_gradient`, `C124_pool_gradient`, `C124_residual`, `C124_vqe`, `C124_pqe`, `C124_trotter`, `C124_trotter_refuted`, `C124_example`, `QiteAlg.C124_qite`, `QiteAlg.C124_qite_example`

### Status per property

| id | status | note |
|---|---|---|
| C01 | proved | all bit positions and indices; QubitBasis modelled on unbounded naturals |
| C02 | proved | every string/angle accepted by make_gate, plus adjoint and control_gate of one-qubit gates; control_gate of a two-qubit gate is proved NOT unitary |
| C03 | proved |  |
| C04 | proved |  |
| C05 | proved | exact complex arithmetic; entries of modulus <= 1e-16 are dropped by the code and by the theorem |
| C06 | partial | excludes the mis-parsed comparison op_0_1 == op_1_0 == 1.0; C06_swap_branch and C08_rx_pi_differs prove what happens there |
| C07 | partial | as C06; matrix entries agree to 1e-16, exactly when no non-zero entry is that small |
| C08 | partial | all circuits of API gates at any angle except Rx with /cos(theta/2)/ <= 1e-16 (mis-parsed branch): exact when no non-zero matrix entry is <= 1e-16 (C08_fast_eq_safe_partial), otherwise with an explicit error bound (C08_fast_vs_safe_partial); apply_circuit_safe has no exception; C08_rx_pi_differs is a counterexample to the unrestricted claim |
| C09 | partial | all API gates outside the mis-parsed branch: exact without sub-threshold entries, otherwise with an explicit error bound |
| C10 | partial | all API gates outside the mis-parsed branch: exact without sub-threshold entries, otherwise with an explicit error bound; the order statement is unconditional |
| C11 | proved | every edit sequence without an inverted remove_gates range (undefined behaviour) and without passing a circuit to itself (F25); C11_remove_gates_never_removes_last is a finding |
| C12 | partial | excludes gates made by control_gate (C12_cU_not_settable); too few values is undefined behaviour rather than an exception (C12_too_few) |
| C13 | proved | circuits and operators |
| C14 | proved | C14_simplify: exact operator equality whenever simplify returns; C14_simplify_total: it returns for circuits without control_gate gates; C14_cU_throws: finding |
| C15 | proved | flag symmetry when both calls return; a control_gate gate may make one order throw |
| C16 | proved |  |
| C17 | proved | findings: == ignores the matrix (C17_eq_ignores_matrix), not transitive |
| C18 | proved | left-to-right reading; the pair (prefactor, string) is also unique |
| C19 | proved | C19_repeated_differs: with repeated qubits the phase is conjugated relative to execution |
| C20 | proved | operator read left to right (F8); same for execution when no term repeats a qubit; the result is a normal form |
| C21 | proved | operator read left to right; all flag values; also for self-aliased argument |
| C22 | proved | add_op with the operator itself as argument (iterator invalidation) is not modelled |
| C23 | proved | std::sort is an arbitrary permutation that depends on the circuits only; C23_cutoff and C23_comparator_not_weak_order are findings |
| C24 | proved | exact for all Pauli operators and all circuits without sub-threshold entries; C24_apply_operator_error bounds the error for API gates at any angle outside the mis-parsed Rx branch |
| C25 | proved | exact for gates (entries above 1e-14) and Pauli strings; explicit column error bound for all circuits of API gates |
| C26 | partial | non-empty operators: explicit bounds against the operator and against apply_operator, exact for a single Pauli string; C26_empty_operator is a counterexample for the empty operator |
| C27 | partial | apply_matrix conjugates its argument (C27_conjugates, C27_refuted); the claim holds for real matrices |
| C28 | proved | No hypotheses: whenever the call returns, the amplitudes are those before the call, for every circuit, operator, pool and draw (C28_*). C29/C31/C32 additionally show the rest of the state (SameState) is restored. |
| C29 | proved | Serial build: exact for exactly representable gates (all Pauli operators), with an explicit error bound for all API gates outside the Rx(pi) branch of C06, and against apply_operator for any operator. Pools in order. OpenMP build characterised (C29_parallel_value): sign (-1)^#Y, see C30. |
| C30 | partial | Proved for strings with an even number of Y, any schedule; false for an odd number of Y (C30_refuted, finding F4); exact value for all strings C30_value. |
| C31 | proved | All strings of X, Y, Z on distinct qubits, all states. C31_identity_gate_measured_as_Z documents finding F13 (explicit I gates). |
| C32 | proved | For all samplers. Includes the Born rule for the sampled weights and that each outcome has a non-vanishing eigenprojection. |
| C33 | partial | False of the code (finding F3): C33_returns_zero proves the call returns 0 and applies the gate for every gate and state; C33_refuted gives concrete instances. Nothing of the claim is provable beyond that. |
| C34 | proved | permutationPhase on every permutation list is the sign of the permutation; errors on non-permutations; multiplicative. |
| C35 | proved | canonical_order/simplify preserve the represented operator for every input of terms with distinct indices (the code's own domain; repeated indices raise or are covered by F6), residual of dropped terms explicit. |
| C36 | partial | Full statement refuted: repeated indices (F6), >=40 orbitals (F7), qubit-excitation sign (F27). Proved on the complement. |
| C37 | proved | CAR for images of single ladder operators of jw_transform. |
| C38 | proved | IsExp (power series) for every Pauli string on distinct qubits; errors characterised. |
| C39 | partial | Proved for strings with a non-identity letter and ancilla outside; refuted for the identity string (F21). |
| C40 | proved | Product formula for all operators, factors, step numbers >= 0; order > 1 raises. |
| C41 | proved | DFT formula for every block (qubit na most significant), reverse is the inverse, run on a computer. |
| C42 | partial | Refuted for every block of two or more qubits (F5: rev_qft negates the block value); holds for one qubit. |
| C43 | proved | For every non-empty 0/1 list and every computer with enough qubits; round trips up to 64 orbitals (width of QubitBasis); the empty list raises in ref_to_basis_idx. |
| C44 | proved | For every 0/1 list (also odd lengths); termination of the worklist loop is part of the theorem. |
| C45 | proved | XOR value, order independence, cancellation, concatenation; an index outside the table is undefined behaviour. |
| C46 | proved | For 1..15 qubits exactly the canonical Pauli strings, once each, with coefficient 1 (all / odd number of Y). Findings proved: 0 qubits diverges, from 16 qubits int conversion is undefined, unknown type raises. |
| C47 | proved | Every pool of Pauli operators: each result operator is the product/commutator in simplified form up to Negligible dropped terms (distinct strings, /c/<=1e-12), coefficients and order as stated; exact for dyadic coefficients. The header comment's [term, Op] is refuted: the code computes [Op, term]. |
| C48 | proved | Every operator the particle-hole pools add, for every reference integer, irrep table and rank (n <= 64 spin orbitals, the bitset width; larger raises: C49_too_large). |
| C49 | partial | C49_contents says exactly what is in the pool for every reference; completeness proved for aufbau references (C49_complete_aufbau_partial, C49_distinct); the full statement is false: C49_refuted_non_aufbau (std::next_permutation starts from the reference instead of the smallest permutation). |
| C50 | partial | Counts for every reference; integer for references below the int width; full statement refuted by C50_refuted_int_overflow. |
| C51 | partial | pauli_condense proved for words with at most two letters per qubit (all the library builds); for three letters it is wrong (C51_refuted_three_letters, finding F17). combine_like_terms, join_organizers and join_H_Am_organizers fully |
| C52 | partial | organizer = second-quantised term proved for every term; agreement with C++ under the conditions of C36; anti-Hermitian for real amplitudes, refuted for complex ones (amplitude of the adjoint not conjugated, F29) |
| C53 | proved |  |
| C54 | proved | Kernel basis: every returned vector is in the kernel of the parity check matrix, they are linearly independent and span it; for every binary matrix. |
| C55 | proved | for every binary matrix with 2n columns; entry (i,j) is 0 iff the encoded Pauli operators commute and 1 iff they anticommute |
| C56 | proved | for every Hamiltonian of canonical Pauli strings: the pipeline terminates and returns independent generators of a maximal Abelian symmetry group, or IndexError when there is none; X-pairing proved when no product of X gates is a symmetry |
| C57 | proved | For every strictly descending index list inside the reference. |
| C58 | proved | Both circuits equal the textbook operators for all distinct qubits and all states, run on every computer, and raise when a qubit is repeated. |
| C59 | partial | Exact for gates the simulator applies exactly; for all other API gates within the 1e-16 truncation bound. Missing: Rx gates hit by the NoSwapBug defect (F1), where the claim is false. |
| C60 | proved | Initial/reset/null/set_state contents, size invariant under every history, counters. |
| C61 | proved | compact_excitation_circuits.py complete; sign factor explicit; wrong index orders refuted (F34, F35) |
| C62 | proved | For every n: total_spin_z/raising/lowering/squared give exactly Sz, S+, S-, Sx^2+Sy^2+Sz^2 of the ceil(n/2) spatial orbitals (odd n therefore touches orbital n), for every behaviour of std::sort. |
| C63 | proved | contents (each generalised excitation exactly once up to sign), anti-Hermiticity and N, Sz conservation; std::sort as an oracle |
| C64 | proved | Contents up to the list SaTerm, normalisation, commutation with N, Sz, S+, S-, and the two-halves shape the ansatz relies on (C64_halves). The pool uses the first n_occ spatial orbitals whatever the occupied orbitals of the reference are (finding F28) |
| C65 | partial | exact acceptance condition proved; the claim that only normal-ordered terms are accepted is false (F30): C65_refuted_not_normal_ordered. On normal-ordered input the result is right (C65_normal_ordered) |
| C66 | proved | for every Hamiltonian of canonical strings without an X-only symmetry and with at most 79 generators; the excluded case is refuted for X0 (F31): the returned operator is not unitary |
| C67 | proved | for every operator commuting with the generators and every sign list; the dropped terms are characterised exactly (/c/ <= 1e-12*sqrt(2)^k before, <= 1e-12 after merging) |
| C69 | proved | commuting terms: exact for every Trotter number; JW of E-E† (rank ≤ 19): the strings commute because κ is a real antisymmetric monomial operator, so every string has an odd number of Y |
| C68 | proved | per-element groups and their sum up to the dropped terms (each at most 1e-12, distinct strings); the meaning of jw_transform itself is C36 |
| C70 | proved | Model: UccAlg.ansatzCircuit etc. (fast mode). C70_ansatz and C70_exact_used (any amplitudes, any Trotter number; amplitudes under the simplify threshold count as zero, all others exactly), C70_used, C70_energy_used (serial and parallel), C70_compact (all amplitudes) and C70_compact_energy (resolved amplitudes), C70_reference; spin-adapted pools: C70_sa_SD with C64_halves, C70_sa_energy, compact circuits C70_sa_compact, C70_sa_compact_energy. |
| C71 | partial | Proved for unit pool coefficients, trotter_number 1, resolved amplitudes and pools of single excitations, with ordinary circuits (C71_gradient, C71_gradient_of_feval) and compact circuits (C71_compact, C71_compact_of_feval), and for sa_SD operators whose pieces commute with ordinary (C71_sa_commuting) and compact circuits (C71_sa_compact). The claim is false of the code in all other cases, and these deviations are theorems too: C71_flat_at_zero, C71_pool_coefficient, C71_no_amplitudes; trotter_number > 1: C71_last_entry, C71_trotter_refuted, NOTES F38; sa_SD operators whose pieces do not commute: C71_sa_refuted, NOTES F36. |
| C72 | proved | C72_value for any ansatz circuit of exactly simulated gates and any pool whose Jordan-Wigner transform fits; C72_excitations for the commutator and derivative forms. |
| C73 | proved | exact real arithmetic; trotter_number 1, non-compact; any amplitudes (C73_residual_used, C73_real_used: those under the simplify threshold count as zero); noise option not modelled. np.imag(res) != 0 is an exact comparison. |
| C74 | proved | H and O_i are Pauli operators; type checks of the dictionary not modelled |
| C75 | proved | generic over energy/residual/preconditioner/lstsq; numpy broadcasting of length-1 vectors and the cost counters not modelled; the last two clauses are deviations proved as theorems |
| C76 | partial | C76_solves and C76_truncated need no or trailing dropped eigenvalues; sorted eigenvectors only if already sorted (C76_sorted_vectors_partial); the general claim is refuted by C76_sorted_vectors_refuted and C76_truncation_refuted. scipy.linalg.eig is a parameter |
| C77 | partial | Exact matrices of the state-vector (fast) routes are proved for every Hamiltonian of Pauli strings with real coefficients; not covered: floating point, trotter_order (ignored by the code), complex coefficients. |
| C78 | proved | All generators of exactly applied gates (ExactGate, see C08) and operators of X/Y/Z strings; identity letters are measured as Z (C31_identity_gate_measured_as_Z). The quality of the random generator is a hypothesis (IdealSampler), shown satisfiable by C78_ideal_sampler_exists. |
| C79 | proved | Both matrix_element variants equal the inner products of the Trotter states of C77; realistic and fast matrices agree entry by entry. Gates exact, i.e. the 1e-16 skip thresholds of the gate kernels as in C08. |
| C80 | proved | State before measurement, all readouts for all draws, majority, mode, nearest-alias energies, exact phases; docstring window and digit-wise majority refuted. Trotter eigenstates; for commuting terms, eigenstates of H. |
| C81 | proved | Lower bound on the Born probability of a readout within 2^-num_precise_bits. |
| C82 | proved | Whole run as a trajectory with optimality of every step, all counters, descent to first order, pools SD..SDTQPH, GSD, cqoy, complete_qubit; stall theorem. lstsq enters as a contract (a minimiser of /S x - b/), shown satisfiable. |
| C83 | proved | SRQK, NTSRQK and MRSQK; scipy eig enters as contract DescEig (orthonormal eigenvectors, descending), shown satisfiable, and shown necessary by C83_order_refuted; expm_multiply as contract ExpmContract. NTSRQK rests on C25_hermitian: the sparse matrix of a Hermitian operator is exactly Hermitian. |
| C84 | proved | Under the contracts of C82 and C83. diagonalize_each_step output and condition numbers are printing only. |
| C85 | proved | Standard (not compact) circuits. The optimizer is a parameter with the contract: right number of amplitudes, fun is the energy at x, not above the energy at the start. Bounds and termination for pools of excitations (all fill_pool types but sa_SD); selection, neutrality and monotonicity for every pool. Findings F56-F58. |
| C86 | proved | pool = increasing list of all admissible determinants (C86_pool, C86_complete); operators excite (C86_excites); agreement with fill_pool |
| C87 | proved | residuals for both conventions, exact error conditions; reality for real Hamiltonians, any amplitudes (those under the simplify threshold count as zero) |
| C88 | proved | selection (C88_update, C88_progress), zero amplitudes in front (C88_neutral), result and number of iterations (C88_run), bound (C88_bound), when the run returns and the IndexError (C88_returns), limit of the estimates (C88_estimate), finite M_omega never returns (C88_sampled); minimize is any function that keeps the number of parameters |
| C89 | partial | build_circuit for one-qubit, two-qubit and rotation words in any layout (C89_build_circuit_partial), build_operator (C89_build_operator). Missing because false: the documented four-field words for controlled rotations (C89_controlled_rotation, C89_controlled_rotation_witness) |
| C90 | proved | C90_tfim, C90_parity, C90_reference_energy, C90_factory; a negative length is treated as zero by python's range |
| C91 | proved | character tables in Spec/Character; C91_irreps, C91_find_irrep, C91_char_table |
| C92 | proved | C92_hamiltonian, C92_hermitian, C92_reference, C92_irreps, C92_returns; C92_lower_case records that only 'C1' (not 'c1') works without irreps in the file; json parsing is not modelled |
| C93 | proved | C93_hamiltonian, C93_hermitian, C93_hf_energy, C93_reference, C93_electrons; what psi4 returns is the input (integrals with the usual symmetry, orbitals ordered as psi4 orders them) |
| C94 | proved | serial build of direct_op_exp_val (the threaded one is wrong on strings with Y, see C30); real arithmetic, print rounding left out |
| C95 | partial | Space, denominators, corrected energies, their limit and the exact case are proved for all settings. Not true of the code: the irrep is always 0 (F67, C95_wrong_irrep), the sign of computed orbital energies for references that do not fill the lowest spin orbitals (F66, C95_orb_energies_wrong); C95_orb_energies_partial is the part that holds. |
| C96 | partial | C96_accepts/C96_refuses: exactly the documented references are accepted; C96_ansatz, C96_penalty_accepts/refuses, C96_hamiltonian, C96_irrep; C96_object, C96_ready, C96_state: what the object holds and that sound arguments give the preconditions of the energy theorems. Missing: the last sentence is false of the code (C96_circuit_unchecked, C96_penalty_unchecked, C96_occupation_unchecked). |
| C97 | proved | Whole runs: pools by name, energy of a normalised state of the register, lower bounds (also within the symmetry sector of the reference), upper bound by the reference energy, return of the scipy branch, stop condition of the projective Jacobi branch. |
| C98 | partial | Selection: proved as the code does it; the importances use the eigenvectors of canonical_geig_solve (correct only if its sort does not permute, F40), conjugated coefficients (F48), unsquared rows when directions are lost (F74), and a configuration is rated by its last determinant only (F47), so 'most important' is not the intended one. Whole runs, orthonormality, Ritz values, bounds and refusals are proved; C98_single_reference shows that the hypotheses can be met. Exact arithmetic. |
| C99 | partial | Proved for every circuit whose qubits Python lists in ascending order (C99_drawing); shape, captions and operator for any order. The bound on the number of columns holds for gates on neighbouring qubits and is false in general (C99_depth_refuted); for other set orders the reading is wrong (C99_order_refuted). Angles are not drawn. |
| C100 | proved | C100_error: explicit bound ncWeight/N for trotterize, with existence and unitarity of the exact exponential; C100_converges: amplitude-wise limit; C100_states, C100_srqk: the Krylov states and matrices. About the circuits as operators; the simulator's 1e-16 truncations are C08/C09's subject. |
| C101 | proved | C101_state, C101_distribution: every trial state and Hamiltonian; C101_overlap: success probability from the overlap with an eigenvector, with the Trotter error of C100; C101_example: X+Z with trial /0>. |
| C102 | partial | All counts proved for all inputs (excitations between different spin orbitals, rank at most 19 for the Jordan-Wigner part). The claim about the reported counters is refuted for MRSQK with diagonalize_each_step=False (C102_mrsqk_stale, C102_mrsqk_example): it reports the count of the preliminary SRQK calculation. Not counted: pools with shared indices, sa_SD. |
| C103 | partial | Proved for fermionic excitations, in the serial build (C103_pool, C103_gradients, C103_agrees) and, for Hamiltonians whose strings have an even number of Y (every molecule, C108), in the parallel build under every schedule with the same error bound (C103_parallel); refuted for qubit_excitations=True (C103_refuted, finding F79). Fast mode only (the other raises). |
| C104 | partial | Proved for UCCN-PQE with SciPy (C104_pqe), ADAPT-VQE and SPQE with the Jacobi solver (C104_macro), QITE and NTSRQK (C104_qite, C104_ntsrqk), lanczos_summary.dat (C104_lanczos; its energies are those of the modelled do_qlanczos), C104_untouched. Refuted: VQE (C104_vqe_refuted, C104_adapt_refuted), SPQE with SciPy (C104_spqe_refuted, C104_spqe_last), header of SRQK (C104_srqk). In the other tables the numbers written are parameters; Python's formatting of numbers is a parameter. |
| C105 | proved | For the trajectory of C82 in real arithmetic, with the least-squares contract; the eigenvalue bound is stated as l*sum y^2 <= /sum y sigma psi/^2. |
| C106 | proved | Gate (str and repr), circuit, qubit operator, second-quantised operator, computer, pools of both kinds. Angles are not printed by str (C106_angles, F84), but by repr (C106_repr_angles). fmt's {:+f} is a parameter (sign, digits, point; equal texts differ by at most 1e-6), C106_format: the contract can be met. The counter of pool entries is not allowed to overflow. |
| C107 | proved | Equality of whole runs, up to the number of measurements; scipy's lstsq enters with its contract. |
| C108 | proved | Exact arithmetic; jw_transform's hypotheses as in C36. |
| C109 | proved | C109_energy, C109_orb_energies, C109_moments, C109_uccnvqe, C109_uccnpqe, C109_adapt, C109_spqe, C109_qite(_evolve), C109_molecule(_external), C109_odd (the hypothesis is needed), C109_example. SciPy's minimizer is a parameter that is a function of the object. The other algorithms (SRQK, MRSQK, NTSRQK, QPE) call no function that depends on the build. Penalty terms are covered by the theorems if their strings have an even number of Y. Exact arithmetic: the order of floating-point summation is not modelled. |
| C110 | proved | Whole runs; scipy and the Jacobi solver are a parameter that returns amplitudes, energy and its reported cost. C110_run, C110_ham, C110_commut, C110_returns, C110_example. |
| C111 | proved | C111_jacobi (as an equation, exceptions included), C111_uccnvqe, C111_uccnpqe, C111_example. The number of evaluations reported by scipy is a parameter. |
| C112 | proved | C112_objective, C112_eigenstate, C112_run, C112_returns; example C112_example. Single-term particle-hole pools, excitation circuits not compact (compact circuits: C61); the scipy optimizer is a parameter, with the contract NotWorse only where stated. |
| C113 | proved | Counters erase to the run of C88; each is a sum over the solves of the run; lines of table and summary file; Jacobi: measurements equal those of the evaluations counted, scipy: at most those. |
| C114 | proved | For every finite history of runs (reflexive transitive closure of uses, an exception leaving any operators and amplitudes). UCCN-VQE and UCCN-PQE set the same attributes before they read them, so their models do not take them as input. |
| C115 | proved | Real Hamiltonians and penalty operators in the form the library returns them (simplified); C115_untidy shows that the form is needed. Covers S_z, S^2 and Jordan-Wigner transforms of self-adjoint operators with real coefficients; C115_builds and C115_molecule extend C109 to runs with penalties. |
| C116 | proved | All roots, SRQK, MRSQK (more references and/or more states) and NTSRQK (same time between states), any preparation and Hamiltonian, provided the larger calculation drops no direction. Example: SRQK on two qubits goes from 2 to at most -2. |
| C117 | proved | NTSRQK: every additive charge, coefficients integer multiples of a number above 1e-16 (otherwise matrix elements below the threshold may be dropped). SRQK, MRSQK: every symmetry of the single Pauli strings; for charges that only the sum conserves the claim is refuted (C117_trotter_refuted, finding F89). |
| C118 | proved | Gates the simulator applies exactly (ExactGate: unitary, outside the mis-parsed branch of F1, no entry below the compute threshold); C118_gate for all names and angles. |
| C119 | proved | In the setting of C84 (Trotterized QITE with real-coefficient Pauli Hamiltonian, least-squares and eigensolver contracts). C119_times: with a positive gap line i belongs to step i*gap, so that the printed Beta = i*gap*db is its imaginary time (with a negative gap the same states are kept and the printed Beta is negative). No direction dropped is a hypothesis on the larger problem. |
| C120 | partial | Proved for SRQK and MRSQK whatever number of directions is dropped and whatever the outcome (C120_srqk_outcome, C120_mrsqk_outcome), for the UCC energy, gradient, pool gradient and residuals at given amplitudes, and for whole UCCNPQE runs. The QITE part is false: C120_qite_refuted, C120_qite_stalls. |
| C121 | proved | Krylov runs: C121_srqk_outcome, C121_mrsqk_outcome. At given amplitudes: C121_energy, C121_residual, C121_gradient, C121_pool_gradient; C121_update for the amplitude update; whole UCCNPQE runs with the Jacobi solver: C121_pqe. C121_qite_step is one step with the thresholds (b threshold, x threshold) in the matching unit; a run with the absolute defaults of the code need not scale. |
| C122 | proved | For determinants as references (use_spin_adapted_refs=False), in the setting of C83. |
| C123 | proved | For Hamiltonians of strings with an even number of Y; otherwise the Krylov spaces at opposite times are unrelated. |
| C124 | proved | Energies, gradients, pool gradients, residuals, orbital energies and whole runs of UCCN-VQE, UCCN-PQE and QITE (with Lanczos) for two Hamiltonians with the same denoted operator, including runs that raise; the minimiser is a parameter that sees only the energies and gradients (resp. residuals). C124_trotter bounds the difference of two Trotterised evolutions, C124_trotter_refuted shows that they can differ. |
