import Verif.Lemmas.SparseOp
import Verif.Props.QubitOperator

/-!
Properties C25–C27: sparse matrices and matrix application.

`Pi.single J 1` is the basis state `J`, so `U (Pi.single J 1) I` is the matrix element `⟨I|U|J⟩`.
`SMat.get` is `SparseMatrix::get_element`.
-/
namespace QF

/-- C25: `gate.sparse_matrix(n)` holds exactly the matrix elements of the gate on `n` qubits whose gate-matrix
entry exceeds 1e-14; elements outside the register are 0. -/
theorem C25_gate (g : Gate) (n : ℕ) (ht : g.target < n) (hc : g.control < n) :
    ∃ S m', g.sparseMatrix n = .ok S ∧ (∀ i j, m' i j = if 1e-14 < ‖g.mat i j‖ then g.mat i j else 0) ∧
      (∀ I J, J < 2 ^ n → S.get I J = matOp g.target g.control m' (Pi.single J 1) I) ∧
      (∀ I J, 2 ^ n ≤ I ∨ 2 ^ n ≤ J → S.get I J = 0) := by
  obtain ⟨S, e1, e2, e3⟩ := gateSparse_ok g n ht hc
  exact ⟨S, trunc14 g.mat, e1, fun i j => by simp [trunc14], e3, fun I J h => SMat.get_eq_zero e2 h⟩

/-- C25: if no non-zero entry of the gate matrix is below 1e-14 the elements are exactly those of the gate -/
theorem C25_gate_exact (g : Gate) (n : ℕ) (ht : g.target < n) (hc : g.control < n) (hr : ∀ i j, g.mat i j ≠ 0 → 1e-14 < ‖g.mat i j‖) :
    ∃ S, g.sparseMatrix n = .ok S ∧ ∀ I J, J < 2 ^ n → S.get I J = g.op (Pi.single J 1) I := by
  obtain ⟨S, m', e1, e2, e3, _⟩ := C25_gate g n ht hc
  have : m' = g.mat := by
    funext i j
    rw [e2]
    by_cases h : 1e-14 < ‖g.mat i j‖
    · rw [if_pos h]
    · rw [if_neg h]; by_contra h'; exact h (hr i j (Ne.symm h'))
  rw [this] at e3
  exact ⟨S, e1, e3⟩

/-- C25: a gate or circuit with a qubit outside the register raises -/
theorem C25_out_of_range (n : ℕ) : (∀ g : Gate, n ≤ g.target ∨ n ≤ g.control → g.sparseMatrix n = .error .runtimeError) ∧
    ∀ c : Circuit, ¬ c.Fits n → c.sparseMatrix n = .error .runtimeError :=
  ⟨fun _ h => gateSparse_error h, fun _ h => circuitSparse_error h⟩

/-- C25: for every circuit of gates made by `qforte.gate` (any angles), each column of `circuit.sparse_matrix(n)`
is within `((1+4e-14)^k - 1)(1 + √2ⁿ/400)` in Euclidean norm (`k` the number of gates) of the image of the basis
state under the circuit, whatever the thresholds dropped; in particular each element is. -/
theorem C25_circuit (c : Circuit) (n : ℕ) (hf : c.Fits n) (ha : ∀ g ∈ c, ApiGate g) :
    ∃ S, c.sparseMatrix n = .ok S ∧ (∀ I J, 2 ^ n ≤ I ∨ 2 ^ n ≤ J → S.get I J = 0) ∧
      ∀ J < 2 ^ n, nrm n ((fun I => S.get I J) - c.op (Pi.single J 1)) ≤ ((1 + 4e-14) ^ c.length - 1) * (1 + Real.sqrt (2 ^ n) / 400) ∧
        ∀ I < 2 ^ n, ‖S.get I J - c.op (Pi.single J 1) I‖ ≤ ((1 + 4e-14) ^ c.length - 1) * (1 + Real.sqrt (2 ^ n) / 400) := by
  obtain ⟨S, e1, e2, e3⟩ := circuitSparse_ok c hf (fun g hg => api_unitary (ha g hg))
  refine ⟨S, e1, fun I J h => SMat.get_eq_zero e2 h, fun J hJ => ⟨e3 J hJ, fun I hI => ?_⟩⟩
  exact le_trans (entry_le_nrm (ψ := (fun I => S.get I J) - c.op (Pi.single J 1)) hI) (e3 J hJ)

/-- C25: for Pauli strings the sparse matrix is exact. -/
theorem C25_pauli_circuit (c : Circuit) (n : ℕ) (hf : c.Fits n) (hp : ∀ g ∈ c, PauliGate g) :
    ∃ S, c.sparseMatrix n = .ok S ∧ ∀ I J, I < 2 ^ n → J < 2 ^ n → S.get I J = c.op (Pi.single J 1) I := by
  obtain ⟨S, e1, _, e3⟩ := pauliSparse_ok c hf hp
  exact ⟨S, e1, e3⟩

/-- the hypotheses are met by a two-qubit circuit with a rotation -/
example : ∃ g h, makeGate "Ry" 0 0 1 = .ok g ∧ makeGate "cX" 1 0 0 = .ok h ∧ Circuit.Fits 2 [g, h] ∧ ∀ x ∈ [g, h], ApiGate x := by
  have h1 := makeGate_of_made (.Ry 0 1)
  have h2 := makeGate_of_made (.cX 1 0 0 (by decide))
  refine ⟨_, _, h1, h2, ?_, ?_⟩
  · intro x hx
    simp only [List.mem_cons, List.not_mem_nil, or_false] at hx
    rcases hx with rfl | rfl <;> simp
  · intro x hx
    simp only [List.mem_cons, List.not_mem_nil, or_false] at hx
    rcases hx with rfl | rfl
    · exact .make h1
    · exact .make h2

/-! ### C26 -/

/-- C26: `apply_sparse_matrix` computes the matrix-vector product exactly, for every matrix produced by
`sparse_matrix` of a gate, circuit or operator on the computer's register. -/
theorem C26_matrix_vector (q : Computer) (hq : q.WF) (S : SMat)
    (hS : (∃ g : Gate, g.sparseMatrix q.nqubit = .ok S) ∨ (∃ c : Circuit, (∀ g ∈ c, ApiGate g) ∧ c.sparseMatrix q.nqubit = .ok S) ∨
      ∃ A : QubitOperator, (∀ t ∈ A, ∀ g ∈ t.2, ApiGate g) ∧ A.sparseMatrix q.nqubit = .ok S) :
    ∃ q', q.applySparseMatrix S = .ok q' ∧ q'.WF ∧ q'.nqubit = q.nqubit ∧
      ∀ I, q'.psi I = ∑ J ∈ Finset.range (2 ^ q.nqubit), S.get I J * q.psi J := by
  apply applySparse_ok hq
  have hcirc : ∀ (c : Circuit) S, (∀ g ∈ c, ApiGate g) → c.sparseMatrix q.nqubit = .ok S → S.OK (2 ^ q.nqubit) := by
    intro c S ha e
    by_cases hf : c.Fits q.nqubit
    · obtain ⟨S', e1, e2, _⟩ := circuitSparse_ok c hf (fun g hg => api_unitary (ha g hg))
      rw [e] at e1; cases e1; exact e2
    · rw [circuitSparse_error hf] at e; cases e
  rcases hS with ⟨g, e⟩ | ⟨c, ha, e⟩ | ⟨A, ha, e⟩
  · by_cases hf : g.target < q.nqubit ∧ g.control < q.nqubit
    · obtain ⟨S', e1, e2, _⟩ := gateSparse_ok g q.nqubit hf.1 hf.2
      rw [e] at e1; cases e1; exact e2
    · rw [gateSparse_error (by omega)] at e; cases e
  · exact hcirc c S ha e
  · unfold QubitOperator.sparseMatrix at e
    by_cases hA : A.isEmpty = true
    · rw [if_pos hA] at e; cases e; exact (identity_ok _).1
    · rw [if_neg hA] at e
      have loop : ∀ (A : QubitOperator) (R : SMat), R.OK (2 ^ q.nqubit) → (∀ I J, chop (R.get I J) = R.get I J) → (∀ t ∈ A, ∀ g ∈ t.2, ApiGate g) →
          A.foldlM (fun R t => (do
            let L ← t.2.sparseMatrix q.nqubit
            pure (SMat.add R L t.1) : Except Exc SMat)) R = .ok S → S.OK (2 ^ q.nqubit) := by
        intro A
        induction A with
        | nil => intro R h _ _ e; cases e; exact h
        | cons t A ih =>
          intro R h hch ha e
          rw [List.foldlM_cons] at e
          rcases hL : t.2.sparseMatrix q.nqubit with x | L
          · simp only [hL] at e; cases e
          · simp only [hL, except_ok_bind, pure, Except.pure] at e
            obtain ⟨a1, a2⟩ := add_ok h (hcirc t.2 L (ha t (by simp)) hL) t.1 hch
            exact ih (R.add L t.1) a1 (fun I J => by rw [a2, chop_chop]) (fun t ht => ha t (by simp [ht])) e
      refine loop A [] (.nil _) ?_ ha e
      intro I J; simp [SMat.get, SMat.row, SVec.get, amGet, chop]

theorem psi_onReg {q : Computer} (hq : q.WF) : OnReg q.nqubit q.psi := by
  intro I hI
  exact vec_of_ge (by rw [hq.len]; exact hI)

/-- C26: for every non-empty operator of API gates, applying its sparse matrix gives `op` applied to the state up
to `√2ⁿ · ‖ψ‖ · Σ_k (|z_k| · E_k + 1e-16·√2ⁿ)` in Euclidean norm, `E_k` the bound of C25 for circuit `k`. -/
theorem C26_apply_operator_sparse (q : Computer) (A : QubitOperator) (hq : q.WF) (hne : A ≠ [])
    (hA : ∀ t ∈ A, t.2.Fits q.nqubit ∧ ∀ g ∈ t.2, ApiGate g) :
    ∃ S q', A.sparseMatrix q.nqubit = .ok S ∧ q.applySparseMatrix S = .ok q' ∧ q'.WF ∧ q'.nqubit = q.nqubit ∧
      nrm q.nqubit (q'.psi - A.op q.psi) ≤
        (A.map fun t => ‖t.1‖ * (((1 + 4e-14) ^ t.2.length - 1) * (1 + Real.sqrt (2 ^ q.nqubit) / 400)) + 1e-16 * Real.sqrt (2 ^ q.nqubit)).sum
          * Real.sqrt (2 ^ q.nqubit) * nrm q.nqubit q.psi := by
  obtain ⟨S, e1, e2, e3⟩ := operatorSparse_ok hne (fun t => sparseErr q.nqubit t.2.length) (fun t ht =>
    circuitSparse_ok t.2 (hA t ht).1 (fun g hg => api_unitary ((hA t ht).2 g hg)))
  obtain ⟨q', f1, f2, f3, f4⟩ := applySparse_ok hq e2
  refine ⟨S, q', e1, f1, f2, f3, ?_⟩
  have := nrm_columns (fun I J => S.get I J) A.op _ (by
    apply List.sum_nonneg
    intro x hx
    obtain ⟨t, _, rfl⟩ := List.mem_map.1 hx
    have := sparseErr_nonneg q.nqubit t.2.length
    have := Real.sqrt_nonneg (2 ^ q.nqubit)
    positivity) q.psi (psi_onReg hq) e3
  rw [show q'.psi = fun I => ∑ J ∈ Finset.range (2 ^ q.nqubit), S.get I J * q.psi J from funext f4]
  exact this

/-- C26: for Pauli operators `apply_sparse_matrix(op.sparse_matrix(n))` and `apply_operator(op)` leave states that
differ, amplitude by amplitude, by at most `1e-16 · (number of terms) · Σ_J |ψ_J|`. -/
theorem C26_sparse_vs_apply_operator (q : Computer) (A : QubitOperator) (hq : q.WF) (hne : A ≠ []) (hA : A.IsPauli)
    (hn : A.numQubits ≤ q.nqubit) :
    ∃ S q1 q2, A.sparseMatrix q.nqubit = .ok S ∧ q.applySparseMatrix S = .ok q1 ∧ q.applyOperator A = .ok q2 ∧
      ∀ I < 2 ^ q.nqubit, ‖q1.psi I - q2.psi I‖ ≤ A.length * 1e-16 * ∑ J ∈ Finset.range (2 ^ q.nqubit), ‖q.psi J‖ := by
  have hf : ∀ t ∈ A, t.2.Fits q.nqubit := by
    intro t ht g hg
    have := (C13_operator_num_qubits A).1 t ht g hg
    omega
  obtain ⟨S, e1, e2, e3⟩ := pauliOpSparse_ok hne hf (isPauli_circuits hA)
  obtain ⟨q1, f1, _, _, f4⟩ := applySparse_ok hq e2
  obtain ⟨q2, g1, _, _, g4⟩ := C24_apply_pauli_operator q A hq hA hn
  refine ⟨S, q1, q2, e1, f1, g1, fun I hI => ?_⟩
  rw [f4, g4, op_columns A.op (2 ^ q.nqubit) q.psi (psi_onReg hq) I, ← Finset.sum_sub_distrib, Finset.mul_sum]
  refine le_trans (norm_sum_le _ _) (Finset.sum_le_sum fun J hJ => ?_)
  rw [← sub_mul, norm_mul]
  exact mul_le_mul_of_nonneg_right (e3 I J hI (Finset.mem_range.1 hJ)) (norm_nonneg _)

/-- C26: for a single Pauli string with coefficient of modulus above 1e-16 the two agree exactly. -/
theorem C26_single_term (q : Computer) (z : ℂ) (c : Circuit) (hq : q.WF) (hp : ∀ g ∈ c, PauliGate g) (hf : c.Fits q.nqubit) (hz : 1e-16 < ‖z‖) :
    ∃ S q1 q2, QubitOperator.sparseMatrix [(z, c)] q.nqubit = .ok S ∧ q.applySparseMatrix S = .ok q1 ∧ q.applyOperator [(z, c)] = .ok q2 ∧
      q1.coeff = q2.coeff := by
  obtain ⟨L, l1, l2, l3⟩ := pauliSparse_ok c hf hp
  have h0 : ∀ I J, SMat.get [] I J = 0 := by intro I J; simp [SMat.get, SMat.row, SVec.get, amGet]
  obtain ⟨a1, a2⟩ := add_ok (M := []) (.nil (2 ^ q.nqubit)) l2 z (by intro I J; rw [h0]; simp [chop])
  obtain ⟨q1, f1, f2, f3, f4⟩ := applySparse_ok hq a1
  obtain ⟨q2, g1, g2, g3, g4⟩ := C24_apply_operator q [(z, c)] hq (by
    intro t ht; simp at ht; subst ht; exact ⟨hf, fun g hg => (hp g hg).exact⟩)
  refine ⟨SMat.add [] L z, q1, q2, ?_, f1, g1, ?_⟩
  · simp only [QubitOperator.sparseMatrix, List.isEmpty_cons, Bool.false_eq_true, if_false, List.foldlM_cons, List.foldlM_nil, l1, except_ok_bind,
      pure, Except.pure]
  · apply vec_ext
    · rw [f2.len, g2.len, f3, g3]
    · show q1.psi = q2.psi
      funext I
      by_cases hI : I < 2 ^ q.nqubit
      · rw [f4, g4, op_columns (QubitOperator.op [(z, c)]) (2 ^ q.nqubit) q.psi (psi_onReg hq) I]
        refine Finset.sum_congr rfl (fun J hJ => ?_)
        congr 1
        have hJ := Finset.mem_range.1 hJ
        rw [a2, h0, add_zero, l3 I J hI hJ]
        have hu : UZ (c.op (Pi.single J 1)) := by
          clear l3 l1 g1 g4 hf
          have : ∀ (c : Circuit) (φ : St), (∀ g ∈ c, PauliGate g) → UZ φ → UZ (c.op φ) := by
            intro c
            induction c with
            | nil => intro φ _ h; exact h
            | cons g c ih => intro φ hp h; exact ih (g.op φ) (fun x hx => hp x (by simp [hx])) (h.pauli (hp g (by simp)))
          exact this c _ hp (UZ.single J)
        have e : QubitOperator.op [(z, c)] (Pi.single J 1) I = z * c.op (Pi.single J 1) I := by simp [QubitOperator.op]
        rw [e]
        unfold chop
        rcases hu I with h | h
        · rw [h]; simp
        · rw [if_pos (by rw [norm_mul, h, mul_one]; exact hz)]
      · rw [psi_onReg f2 I (by rw [f3]; omega), psi_onReg g2 I (by rw [g3]; omega)]

/-- C26 (finding): for the operator with no terms the two disagree: its sparse matrix is the identity, so
`apply_sparse_matrix` leaves the state unchanged, while `apply_operator` gives the zero vector. -/
theorem C26_empty_operator (q : Computer) (hq : q.WF) :
    ∃ S q1 q2, QubitOperator.sparseMatrix [] q.nqubit = .ok S ∧ q.applySparseMatrix S = .ok q1 ∧ q.applyOperator [] = .ok q2 ∧
      q1.psi = q.psi ∧ q2.psi = 0 := by
  obtain ⟨h1, h2⟩ := identity_ok (2 ^ q.nqubit)
  obtain ⟨q1, f1, f2, f3, f4⟩ := applySparse_ok hq h1
  obtain ⟨q2, g1, g2⟩ := C24_empty q hq
  refine ⟨_, q1, q2, rfl, f1, g1, ?_, g2⟩
  funext I
  by_cases hI : I < 2 ^ q.nqubit
  · rw [f4, Finset.sum_eq_single I]
    · rw [h2]; simp [hI]
    · intro b _ hb; rw [h2, if_neg (fun h => hb h.1.symm), zero_mul]
    · intro h; exact absurd (Finset.mem_range.2 hI) h
  · rw [psi_onReg f2 I (by rw [f3]; omega), psi_onReg hq I (by omega)]

/-! ### C27 -/

theorem mapM_range_ok {α : Type} (f : ℕ → Except Exc α) (v : ℕ → α) : ∀ (l : List ℕ), (∀ I ∈ l, f I = .ok (v I)) →
    l.mapM f = .ok (l.map v) := by
  intro l h
  induction l with
  | nil => rfl
  | cons a l ih =>
    rw [List.mapM_cons, h a (by simp), ih (fun I hI => h I (by simp [hI]))]; rfl

theorem vec_map_range (f : ℕ → ℂ) (n I : ℕ) : vec ((List.range n).map f) I = if I < n then f I else 0 := by
  unfold vec
  rw [List.getD_eq_getElem?_getD, List.getElem?_map]
  by_cases h : I < n
  · rw [List.getElem?_range h, if_pos h]; rfl
  · rw [List.getElem?_eq_none (by simpa using h), if_neg h]; rfl

/-- C27 (finding): `apply_matrix(M)` maps the state `v` to `conj(M) v`: `std::inner_product` is given the product
`conj(a)·b`. -/
theorem C27_conjugates (q : Computer) (hq : q.WF) (M : List (List ℂ)) (hM : M.length = 2 ^ q.nqubit) (hr : ∀ r ∈ M, r.length = 2 ^ q.nqubit) :
    ∃ q', q.applyMatrix M = .ok q' ∧ q'.WF ∧ q'.nqubit = q.nqubit ∧
      ∀ I < 2 ^ q.nqubit, q'.psi I = ∑ J ∈ Finset.range (2 ^ q.nqubit), (starRingEnd ℂ) (vec (M.getD I []) J) * q.psi J := by
  obtain ⟨v, hv⟩ : ∃ v : ℕ → ℂ, v = fun I => ∑ J ∈ Finset.range (2 ^ q.nqubit), (starRingEnd ℂ) (vec (M.getD I []) J) * q.psi J := ⟨_, rfl⟩
  have h : (List.range q.nbasis).mapM (fun I => match M[I]? with
      | none => (.error .undefinedBehaviour : Except Exc ℂ)
      | some row => innerProd 0 row q.coeff) = .ok ((List.range q.nbasis).map v) := by
    apply mapM_range_ok
    intro I hI
    have hI : I < 2 ^ q.nqubit := by rw [← hq.nbasis]; exact List.mem_range.1 hI
    have hIM : I < M.length := by rw [hM]; exact hI
    rw [List.getElem?_eq_getElem hIM]
    have hl := hr _ (List.getElem_mem hIM)
    simp only
    rw [innerProd_eq _ _ _ (by rw [hl, hq.len]), hl, zero_add, hv]
    simp only [List.getD_eq_getElem?_getD, List.getElem?_eq_getElem hIM, Option.getD_some]
    rfl
  refine ⟨{ q with coeff := (List.range q.nbasis).map v }, ?_, ⟨hq.nbasis, ?_, hq.new⟩, rfl, ?_⟩
  · unfold Computer.applyMatrix
    erw [h]; rfl
  · show ((List.range q.nbasis).map v).length = _
    rw [List.length_map, List.length_range, hq.nbasis]
  · intro I hI
    show vec ((List.range q.nbasis).map v) I = _
    rw [vec_map_range, hq.nbasis, if_pos hI, hv]

/-- C27 (the part that holds): for real matrices `apply_matrix(M)` maps `v` to `M v`. -/
theorem C27_real_matrix_partial (q : Computer) (hq : q.WF) (M : List (List ℂ)) (hM : M.length = 2 ^ q.nqubit) (hr : ∀ r ∈ M, r.length = 2 ^ q.nqubit)
    (hreal : ∀ r ∈ M, ∀ z ∈ r, z.im = 0) :
    ∃ q', q.applyMatrix M = .ok q' ∧ q'.WF ∧ q'.nqubit = q.nqubit ∧
      ∀ I < 2 ^ q.nqubit, q'.psi I = ∑ J ∈ Finset.range (2 ^ q.nqubit), vec (M.getD I []) J * q.psi J := by
  obtain ⟨q', e1, e2, e3, e4⟩ := C27_conjugates q hq M hM hr
  refine ⟨q', e1, e2, e3, fun I hI => ?_⟩
  rw [e4 I hI]
  refine Finset.sum_congr rfl (fun J hJ => ?_)
  congr 1
  have hIM : I < M.length := by rw [hM]; exact hI
  have hJ : J < (M[I]).length := by rw [hr _ (List.getElem_mem hIM)]; exact Finset.mem_range.1 hJ
  have hz := hreal _ (List.getElem_mem hIM) _ (List.getElem_mem hJ)
  unfold vec
  simp only [List.getD_eq_getElem?_getD, List.getElem?_eq_getElem hIM, Option.getD_some, List.getElem?_eq_getElem hJ]
  exact Complex.conj_eq_iff_im.2 hz

/-- C27 (refutation of the unrestricted claim): with `M = [[i, 0], [0, 1]]` on `|0⟩` the result is `-i|0⟩`, not `i|0⟩`. -/
theorem C27_refuted : ∃ q', (Computer.init 1).applyMatrix [[Complex.I, 0], [0, 1]] = .ok q' ∧ q'.psi 0 = -Complex.I := by
  obtain ⟨q', e1, _, _, e4⟩ := C27_conjugates (Computer.init 1) (.init 1) [[Complex.I, 0], [0, 1]] rfl (by simp [Computer.init])
  refine ⟨q', e1, ?_⟩
  rw [e4 0 (by simp [Computer.init])]
  simp [Computer.init, Computer.psi, vec, Finset.sum_range_succ]

/-- a matrix too small for the register is read out of range -/
theorem C27_too_small : (Computer.init 1).applyMatrix [[1, 0]] = .error .undefinedBehaviour := by
  simp [Computer.applyMatrix, Computer.init, List.range, List.range.loop, innerProd, bind, Except.bind]

end QF
