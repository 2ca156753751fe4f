# Formal model of evangelistalab/qforte in Lean 4

## 1. Conventions of the model

* **Numbers.** `double` is modelled by the exact reals `ℝ`, `std::complex<double>` by `ℂ` (Mathlib). Rounding, NaN and
  overflow of doubles are *not* modelled; every numerical threshold of the code (1e-16, 1e-14, 1e-12, 1e-10) *is* kept
  with its exact value and comparison operator. `M_PI`, `cos`, `sin`, `exp`, `sqrt`, `fmod` are the exact functions.
* **Integers.** `size_t` is `ℕ`, except where the property is about width (`QubitBasis` = `BitVec 64`, the `int`
  multiplier of `set_orb_spaces`, the `uint8` arithmetic of the tapering code).
* **Vectors** are `List`; `std::map` is a sorted association list; exceptions are values `Except Exc α`
  (`Exc.undefinedBehaviour` marks an out-of-range access of a `std::vector`, i.e. C++ UB).
* **Loops** with data independent bounds are modelled as the list of loop-variable values they visit, in order (written
  as the same nested while/for recursion), and the body is folded over that list.
* **What the model takes as parameters** (every theorem quantifies over them, under the stated contract):
  `Sampler` (`std::discrete_distribution`: an arbitrary sequence of drawn indices, or independent draws with the given
  weights in C78), `Schedule` (OpenMP: any partition and order of the iterations of a reduction), `SortOracle` /
  `DescSort` (`std::sort`, `numpy.argsort`: any sorted permutation), `NextPerm` (`std::next_permutation`: the next string in
  lexicographic order), `EigOracle` (`scipy.linalg.eig`), the lstsq result of DIIS, `ExpmOracle`
  (`scipy.sparse.linalg.expm_multiply`; contract `ExpmContract` = the exponential series). No theorem assumes that such an
  oracle exists silently: it is a variable, and its contract is a hypothesis.
* **Unbounded loops** are run with fuel and return `.diverges` when it is used up; theorems say `∃ N, ∀ fuel ≥ N, ...`.
* Python dictionaries are insertion-ordered association lists; binary numpy arrays are `BMat` over `ZMod 2`; complex numpy
  matrices are functions `ℕ → ℕ → ℂ` with explicit sizes. Python exceptions are values (`Exc.nameError`, `.typeError`, ...).
* `noncomputable` definitions are used because of `ℝ`/`ℂ`; they are nevertheless ordinary total functions mirroring the code.

## 2. Layers (lean/Verif/)

* `Spec/`   – the small independent specification; nothing in it refers to `Model/` algorithms (only to the data types `Gate`,
  `Circuit`, ... whose meaning it defines).
  `Bits` (bit operations), `Ops` (linear operators on amplitude functions `ℕ → ℂ`: `op1`, `op2`, `ctrlOp`, `proj`),
  `GateOp`/`GateDen` (the textbook matrix of every gate), `State`, `Inner` (inner products on `n` qubits), `CircuitOp`,
  `Pauli`, `OperatorOp` (meaning of circuits and qubit operators), `Fermion` (ladder operators), `SQOp` (meaning of
  second-quantised operators), `Exp` (`IsExp`: exponential of an operator by its power series), `DFT`, `Charge`,
  `Excitation`, `Organizer`, `Tapering`, `Compact`, `Skew`, `UCC`, `RealOp`.
* `Model/`  – the code, function by function, each definition citing file and lines.
* `Lemmas/` – helper lemmas.
* `Props/`  – the property theorems (named `C.._...`), each with an `example`/`C.._example` showing that a concrete,
  non-trivial case meets its hypotheses.

The bridge between model and specification is `vec : List ℂ → (ℕ → ℂ)` (amplitude of basis state `I`, 0 outside).

## 3. Trusted base

1. Lean 4.33.0's kernel.
2. The axioms `propext`, `Classical.choice`, `Quot.sound` only (section 6; `tools/axioms.py` reproduces the table).
3. Mathlib's definitions used in statements (`ℝ`, `ℂ`, `Module.End`, `HasSum`, `Nat.testBit`, `BitVec`, `HasDerivAt`,
   `Equiv.Perm.sign`, measures in C32) and the definitions of `Spec/`.
4. The faithfulness of the reading of /repo recorded in the comments of `Model/` (no extraction; nothing was executed).

### Modelled

| code | model |
|---|---|
| gate.h/.cc, make_gate.cc | Gate, Api (which gates a user can build) |
| circuit.h/.cc | Circuit (add/insert/remove/swap, parameters, adjoint, reversal, simplify, canonicalize, equality) |
| qubit_basis.h/.cc | QubitBasis |
| computer.h/.cc | Computer, ComputerOps, Measure (all apply paths, fast/safe, measurement, expectation values, OpenMP reductions) |
| sparse_tensor.h/.cc | Sparse |
| qubit_operator.cc | QubitOperator |
| qubit_op_pool.cc | QubitPool |
| sq_operator.cc, sq_op_pool.cc | SQOperator, SQPool, SQPool2 |
| find_irrep.cc, utils/state_prep.py, utils/symmetry helpers | StatePrep |
| utils/exponentiate.py, utils/trotterization.py | Expo |
| utils/qft.py | QFT |
| utils/transforms.py | Transforms |
| utils/spin_operators.py | Spin |
| utils/compact_excitation_circuits.py | Compact |
| utils/qubit_tapering.py | Tapering |
| utils/compute_matrix_element.py | MatrixElement |
| helper/advance_gates_helper.py | Helper (Toffoli, Fredkin) |
| abc/ansatz.py, abc/algorithm.py, abc/uccvqeabc.py | UCC, Penalty |
| ucc/uccnpqe.py | PQE |
| maths/optimizer.py | Jacobi |
| maths/eigsolve.py, helper/idx_org.py | GEig |
| qkd/srqk.py, qkd/mrsqk.py (build_qk_mats_fast), qkd/nt_srqk.py | Krylov, NtSrqk (run) |
| experiment/experiment.py | Experiment |
| qkd/srqk.py (matrix_element, build_qk_mats_realistic) | Hadamard |
| qpea/qpe.py | QPE |
| ite/qite.py | QITE (expansion pools, S, b, steps, evolution, QLanczos) |
| abc/qsdabc.py, qkd/srqk.py, qkd/mrsqk.py | QSD (common_run and the runs, without printing and condition numbers; eig is a contract) |
| ucc/spqe.py, abc/uccpqeabc.py: solve | SPQE (run, get_residual_vector, update_ansatz, conv_status; scipy's minimize and numpy's lstsq and random.choice are parameters; moment corrections, counters and printing left out) |
| ucc/adaptvqe.py | ADAPT (run, update_ansatz, solve; the optimizer is a parameter), AdaptCount (counters, table, banner numbers) |
| helper/io_helper.py: build_circuit, build_operator | IO (python's float() and complex() of a text are the parameter PyNum) |
| adapters/model_adapters.py, system/system_factory.py, utils/point_groups.py, adapters/molecule_adapters.py: create_external_mol | System (the parsed json is the input) |
| adapters/molecule_adapters.py: create_psi_mol after psi4's calculation | Psi (psi4's results are the input) |
| utils/symmetry_analysis.py: symmetry_check | Symmetry (the printed numbers are returned, print rounding left out) |
| `utils/moment_energy_corrections.py`, `build_orb_energies` (abc/ansatz.py) | `Model/Moments.lean`: serial build; printing left out; non-finite floats are `none` |
| constructors of `Algorithm` and `AnsatzAlgorithm`, `fill_pool` (abc/algorithm.py) | `Model/Algorithm.lean`: python values of the penalty argument as a sum type; printing, timings and file names left out |
| `UCCNVQE.run`, `UCCNPQE.run`, `solve`, `scipy_solve` | `Model/UccRun.lean`: `scipy.optimize.minimize` is a parameter with the contract that it returns as many amplitudes and their energy; printing, counters and noise left out |
| `MRSQK.run`, `build_refs`, `build_sa_refs`, `build_classical_CI_mats`, `build_sa_qk_mats_fast`, `diagonalize_each_step` | `Model/MRSQK.lean`: fast algorithm only; `scipy.linalg.eig` is a parameter; `nan` coefficients are `none`; printing left out |
| `circuit_to_latex` | `Model/Latex.lean`: entries of the wires, figures and the text of the file; the iteration order of the set of qubits is a parameter; evaluated on the circuit of `tests/test_circuit_to_latex.py` the model gives the reference file |
@@EXTRA@@
### Not modelled

Floating-point rounding; console printing (`print_*`, `matprint`) and timers (`timer`);
psi4/OpenFermion calls of `molecule_adapters`, `molecular_info`; scipy's optimizers (`minimize`);
user-defined Python subclasses; memory safety of C++ beyond the marked out-of-range accesses; aliasing (`c.add_circuit(c)`,
F25); performance.
@@NOTYET@@
## 4. Plan per property

How each property of properties.jsonl is modelled / proved:

* C01 `BitVec 64` model of QubitBasis, bit-extensionality.
* C02–C04 `makeGate` as the same if-chain on strings; case analysis; trigonometric identities; `Gate.adjoint`.
* C05–C10 `Computer` model; visited-index lists of the strided loops characterised by `testBit`; fold lemma for disjoint
  pair updates; composition in the ring `Module.End ℂ (ℕ → ℂ)`.
* C11–C13, C16, C17, C22 list refinement.
* C14, C15 `evaluate_gate_interaction` as the same decision tree on gate types; commutation proved in the operator ring;
  `simplify` as the same double loop; invariant: product of surviving gates is constant.
* C18–C21, C23, C47 Pauli words: stable insertion sort, contraction table, map as sorted assoc list; denotation in the ring.
* C24–C33, C60 Computer-level theorems via `vec`.
* C34–C37 permutation parity by the cycle-sorting loop invariant; JW by operator algebra; dyadic-Gaussian lattice
  argument for the intermediate thresholds.
* C38–C40 exponentials: `HasSum` of the exponential series, CNOT-staircase induction.
* C41, C42 QFT by induction over the block.
* C43–C46, C48–C50, C53, C57 lists, bits, permutations.
* C51, C52 organizer model. C54–C56 linear algebra over GF(2). C58 finite ring identities lifted to all states.
* C59 composition of the above. C61, C62 operator algebra.
* C63, C64 pools: exact contents (membership, multiplicity, order) for every reference; C65 acceptance condition of the parser.
* C66, C67 tapering: Clifford conjugation of Pauli words; explicit operator identity U H U = tapered form.
* C68–C70 pool → qubit operators → ansatz circuit: Jordan-Wigner correctness + exactness of Trotter for commuting terms.
* C71, C72 gradients: derivative of the energy function (`HasDerivAt`), parameter shift not used; refutations for F36–F39.
* C73 PQE residuals: projections of the similarity-transformed Hamiltonian. C74 penalty Hamiltonian. C75 Jacobi/DIIS loop.
* C76 generalized eigenvalue solver: matrix algebra over ℂ with `eig` as parameter.
* C77 Krylov matrices: inner products of Trotter states; NTSRQK with `expm_multiply` as parameter.
* C78 Experiment: perfect average; expectation and variance of the sampled average over independent Born draws.
* C79 Hadamard tests: the ancilla circuit evaluates ⟨ψm|V|ψn⟩; both routes of SRQK give the same matrices.
* C80 QPE: state before measurement by commuting the controlled evolutions past the Hadamards and inverting the transform; then every readout, the majority, the mode and the energies; refutations of the documented window and of the digit-wise majority.
* C81 QPE success probability: |amplitude| ≤ 1/(2·distance) and a telescoping bound on the tail; the floor in n_ancilla still leaves enough ancillas.
* C82 QITE: normal equations of the Gram matrix give the nearest step; invariant (Trajectory) by induction on the number of steps; descent by differentiating the Trotter product at 0. `scipy.linalg.lstsq` is any minimiser of |S x - b|.
* C83 Krylov energies: the canonical orthogonalisation makes an orthonormal basis of a subspace of the span, the eigenvalues are Rayleigh quotients; Courant-Fischer for the minimum. `scipy.linalg.eig` of a Hermitian matrix returns orthonormal eigenvectors in descending order (DescEig); without the order the claim is refuted.
* C84 QLanczos: C83 applied to the kept states of C82.
* C85 ADAPT-VQE: invariant of the scan (first maximum); zero amplitudes give an empty group in `commuting_grp_lex`, so the circuit is unchanged; induction over the iterations with the optimizer's contract; unitarity of the circuit for the bound; a nonzero derivative excludes a local minimum for the descent.
* C86 SPQE pool: bit-level enumeration = filter of the determinants (the masks split the binary digits by parity). C87 residuals: amplitude of `U†HUΦ` as an inner product, sign from `κ|R⟩ = ±|I⟩`.
* C88 SPQE: the sorted candidates are split where the running sum passes the threshold; zero amplitudes in front leave the circuit unchanged; induction over the macro-iterations.
* C89 text: a grammar of layouts (Spec/Text) and splitting lemmas. C90 TFIM: closed form of the term list. C91: characters as ±1 vectors, multiplication = xor checked on the finite tables, then induction on the list of orbitals.
* C92 external molecules: list sum = finite sum over index tuples; the Jordan-Wigner transform of a self-adjoint operator has real coefficients because simplified terms are unique (Lemmas/JWHerm).
* C93 frozen core: creation operators on the core kill the core state, annihilation operators kill it from the left; a normal-ordered two-body sum is split by core and active indices (Lemmas/Frozen), spin sums (Lemmas/FrozenSpatial).
- C94: the three moments from C29 and exactness of dyadic products (Lat), weights by a loop invariant over the determinants; odd registers by inversion of the program.
- C95: determinants by the fold of C86, denominators by C24/C29, the limit by C88_estimate; the wrong signs and the wrong irrep by theorem and example.
- C96: the accepted argument combinations as an inductive specification, equivalence with the constructor by cases; what the object holds; the preconditions of C70-C75 follow; the unchecked arguments by counterexample.
- C97: composition of C49/C63 (pools), C96 (construction), C70 (ansatz), C75 (Jacobi), C73 (excited determinants); the symmetry sector by a general lemma on operators that keep a quantum number and their exponentials.
- C98: selection by a sorting lemma on importances; configurations by the loop invariant `Configs`, with the enumeration of C45; references orthonormal by disjointness; energies by C83 on the Gram matrices of C77 and of the spin-adapted references.
- C99: loop invariant with a ghost grid of the gates on every wire; a lemma on circuits that agree on every wire (trace equivalence) gives the operator.
- C100: the register part of an operator becomes a bounded operator of Mathlib's Hilbert space; in that Banach algebra the error of one step is bounded by half of the commutators (fencing theorem for derivatives), then telescoping over the steps.
- C101: explicit amplitudes of the inverse transform for arbitrary families of states, Parseval for the finite Fourier transform, Cauchy-Schwarz against the eigenvector, and the Trotter bound of C100 for the powers of the evolution.
- C102: invariants of the loops of the circuit builders (API gates only, number of CNOT gates); letters of the strings of an excitation by conjugation with X and Z on each qubit and independence of Pauli strings; their number by the trace of the square of the excitation operator.
- C103: the terms that the simplifications of products and differences drop are collected in a residual operator with bounded coefficients; the expectation value of the commutator is the derivative of the energy along the flow of the excitation.
- C104: the file as a list of characters, handles as positions; induction over the callbacks and macro-iterations; the numbers written and their formatting are parameters.
- C105: the trajectory of C82; a product of rotations is within T of 1 and within T^2/2 of its first-order expansion (T the sum of the angles), by induction over the factors; the linear term is the slope of C82_descent.
- C106: the printing functions (str of gates, circuits, operators, states and pools; repr of gates) as functions to lists of characters; injectivity by unique decoding (cutting at the first character outside a class); fmt's {:+f} is a parameter with a contract.
- C107: invariant "real up to a phase" along the trajectory; right-hand sides of even strings vanish; the step depends on the pool only through the chosen strings.
- C108: conjugating the amplitudes multiplies a string by (-1)^(number of Y); linear independence of Pauli strings; simplification of a self-adjoint operator keeps terms in adjoint pairs.
- C109: every successful circuit application keeps the computer well formed, whatever the gates; the two builds are related by a simulation (equal values, computers equal up to operation counters) that is carried through the loops of the algorithms.
- C110: the ADAPT loop with its counters (`Model/AdaptCount.lean`) erases to the loop of C85; induction over the iterations with the list of iterations as a ghost; the optimizer and its reported costs are parameters.
- C111: the Jacobi loop with a count of the calls (`Model/JacobiCount.lean`) is the loop of C75 with the counts as a function of the number of iterations, by induction; the sizes of the vectors are an invariant of the DIIS extrapolation.
- C112: the objective (`Model/ResidualSq.lean`) is the weight of the excited determinants in `U† H U |R⟩`; different particle-hole excitations make different determinants, so the weight is at most the total without the reference component, which is the variance.
- C113: the counters (`Model/SpqeCount.lean`) are proved to erase to the run of `Model/SPQE.lean`, and each of them to be a sum over the list of solves of the run; the scipy route counts callbacks, which is stated as an inequality with its equality case.
- C114: a run changes only pool, operators and amplitudes of the object (induction over the iterations), and the next run overwrites them before it reads them; histories are the reflexive transitive closure of uses.
- C115: invariant of the penalty loop: real coefficients, strings on the register, even number of Y. The first simplification in the product drops a multiple of the identity only when the operator is in simplified form; the product then commutes and is self-adjoint and real, and the Pauli strings are independent. For other operators the claim is refuted (C115_untidy).
- C116: the returned roots are the Ritz values of the spanned space (C83); with nothing dropped the larger calculation spans a space containing the smaller one, and Cauchy interlacing, proved by counting dimensions, orders the roots index by index.
- C117: NTSRQK: matrix elements are exact when the coefficients are multiples of a number above the 1e-16 threshold (partial sums are Gaussian integers times that number), so the matrix commutes with the charge and the exponential series stays in its eigenspace. Trotter products commute with what commutes with each string; for the number of electrons this fails and the claim is refuted by a two-qubit instance (C117_trotter_refuted).
- C118: a permutation of bit positions induces a permutation of the basis states (through the bijection of numbers with finite sets of bits); gate operators commute with it because they refer to bits by name only. For disjoint qubits the state is a product function of the low and the high bits, gates act on one factor, and the inner product factorises.
- C119: the loop of do_qlanczos on the first k kept vectors is its own prefix; what a step keeps is appended, so a shorter evolution keeps a prefix; the Ritz energies of nested spans are compared through the variational characterisation of C84.
- C120: the operator gains c times the identity; Trotter states gain a phase, so the Gram matrices are congruent by a diagonal of phases and the Ritz problems differ by c; for the unitary ansatz ⟨Kψ, ψ⟩ of the constant vanishes in every residual, gradient and commutator. For QITE the refutation is proved on one qubit.
- C121: Trotter factors depend on the product of coefficient and time, so the states are equal and the Ritz problem is multiplied by a; residuals and gradients are linear in the Hamiltonian; for a QITE step the right-hand side and the matrix are compared entry by entry.
- C122: a permutation of the references permutes the blocks of the Gram matrices; the space kept by canonical_geig_solve is spanned by all eigenvectors above the threshold, so it is the same space, and the Ritz values in it are unique (interlacing both ways). The same argument removes from C120 the hypothesis that nothing is dropped.
- C123: the Trotter states at opposite times are complex conjugates; the Gram matrices are conjugates, so are the kept spaces, and a real Hamiltonian has the same Ritz values in a space and in its conjugate.
- C124: `apply_operator` and `direct_op_exp_val` see only the denoted operator of a Hamiltonian (C24, C29); every step of the runs that uses the Hamiltonian goes through them. For Trotterised evolutions: the error bound of C100 twice, and X + Z in its two orders as the counterexample.
@@PLAN@@
Properties found false of the code are refuted by a theorem with a concrete witness and the strongest true variant is
proved under the suffix `_partial` (see section 5).

## 5. Findings (model = code, property false)

Numbers as in NOTES.md; where a theorem of the form `C.._refuted...` is named, the deviation is machine-checked.

@@FINDINGS@@

## 6. Theorems and axioms

@@AXIOMS@@
