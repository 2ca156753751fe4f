import Verif.Model.MatrixElement
import Verif.Props.Lifecycle
import Verif.Props.ComputerErr
import Verif.Props.QubitOperator
import Verif.Lemmas.QFT

/-!
C59: matrix elements.
-/
namespace QF

/-- the operator between bra and ket: the identity when none is given -/
noncomputable def optOp : Option QubitOperator → Op
  | some A => A.op
  | none => 1

/-- `⟨0| U_bra† O U_ket |0⟩` on `n` qubits -/
noncomputable def matrixElement (n : ℕ) (Ubra Uket : Circuit) (Q : Option QubitOperator) : ℂ :=
  inner n (Ubra.op (Pi.single 0 1)) (optOp Q (Uket.op (Pi.single 0 1)))

theorem adj_mem {c : Circuit} {g : Gate} (hg : g ∈ c.adjoint) : ∃ h ∈ c, g = h.adjoint := by
  simp only [Circuit.adjoint, List.mem_reverse, List.mem_map] at hg
  obtain ⟨h, h1, h2⟩ := hg
  exact ⟨h, h1, h2.symm⟩

theorem adj_fits {n : ℕ} {c : Circuit} (h : c.Fits n) : c.adjoint.Fits n := by
  intro g hg
  obtain ⟨h', h1, rfl⟩ := adj_mem hg
  rw [(adjoint_target h').1, (adjoint_target h').2]; exact h h' h1

theorem inner_zero_state (n : ℕ) (ψ : St) : inner n (Pi.single 0 1) ψ = ψ 0 := by
  unfold inner
  rw [Finset.sum_eq_single 0]
  · simp
  · intro b _ hb; rw [Pi.single_eq_of_ne hb]; simp
  · intro h; simp at h

theorem element_eq {n : ℕ} {U : Circuit} (hf : U.Fits n) (ha : ∀ g ∈ U, ApiGate g) (φ : St) :
    U.adjoint.op φ 0 = inner n (U.op (Pi.single 0 1)) φ := by
  have h := inner_circuit hf (fun g hg => api_unitary (ha g hg)) (Pi.single 0 1) (U.adjoint.op φ)
  rw [inner_zero_state, ← Module.End.mul_apply, (circuit_adjoint_op ha).2] at h
  exact h.symm

theorem psi_zero {q : Computer} (hq : q.WF) : q.coeff[0]? = some (q.psi 0) := by
  have : 0 < q.coeff.length := by rw [hq.len]; positivity
  rw [List.getElem?_eq_getElem this]
  simp [Computer.psi, vec, List.getElem?_eq_getElem this]

/-- C59 for gates that the simulator applies exactly: the returned number is the matrix element. -/
theorem C59_matrix_element_partial (n : ℕ) (Ubra Uket : Circuit) (Q : Option QubitOperator)
    (hb : Ubra.Fits n) (hk : Uket.Fits n) (ab : ∀ g ∈ Ubra, ApiGate g ∧ ExactGate g) (ak : ∀ g ∈ Uket, ExactGate g)
    (hQ : ∀ A ∈ Q, ∀ t ∈ A, t.2.Fits n ∧ ∀ g ∈ t.2, ExactGate g) :
    computeOperatorMatrixElement n Ubra Uket Q = .ok (matrixElement n Ubra Uket Q) := by
  obtain ⟨q1, e1, w1, n1, p1⟩ := applyCircuit_exact Uket (C60_init n).1 hk ak
  obtain ⟨q2, e2, w2, n2, p2⟩ : ∃ q2, q1.applyOptional Q = .ok q2 ∧ q2.WF ∧ q2.nqubit = n ∧ q2.psi = optOp Q q1.psi := by
    have n1' : q1.nqubit = n := n1
    cases Q with
    | none => exact ⟨q1, rfl, w1, n1', rfl⟩
    | some A =>
      obtain ⟨q2, a, b, c, d⟩ := C24_apply_operator q1 A w1 (by rw [n1']; exact hQ A rfl)
      exact ⟨q2, a, b, c.trans n1', d⟩
  obtain ⟨q3, e3, w3, n3, p3⟩ := applyCircuit_exact Ubra.adjoint w2 (by rw [n2]; exact adj_fits hb) fun g hg => by
    obtain ⟨h', h1, rfl⟩ := adj_mem hg
    exact (ab h' h1).2.adjoint (ab h' h1).1
  unfold computeOperatorMatrixElement
  simp only [e1, except_ok_bind, e2, e3, psi_zero w3, pure, Except.pure]
  rw [p3, p2, p1, (C60_init n).2, element_eq hb fun g hg => (ab g hg).1]
  rfl

/-- the largest possible norm of `O ψ` for a unit `ψ`: the sum of the absolute coefficients -/
noncomputable def opNorm1 : Option QubitOperator → ℝ
  | some A => (A.map fun t => ‖t.1‖).sum
  | none => 1
/-- truncation error of applying the operator to a unit vector -/
noncomputable def opErr : Option QubitOperator → ℝ
  | some A => (A.map fun t => ‖t.1‖ * ((1 + 4e-16) ^ t.2.length - 1)).sum
  | none => 0

theorem nrm_op_le {n : ℕ} (Q : Option QubitOperator) (hQ : ∀ A ∈ Q, ∀ t ∈ A, t.2.Fits n ∧ ∀ g ∈ t.2, ApiGate g ∧ FastOK g) (ψ : St) :
    nrm n (optOp Q ψ) ≤ opNorm1 Q * nrm n ψ := by
  cases Q with
  | none => simp [optOp, opNorm1]
  | some A =>
    replace hQ := hQ A rfl
    unfold optOp opNorm1
    simp only
    induction A with
    | nil => simp [QubitOperator.op, nrm_zero]
    | cons t A ih =>
      have h1 := ih fun s hs => hQ s (by simp [hs])
      have h2 := nrm_circuit (hQ t (by simp)).1 (fun g hg => api_unitary ((hQ t (by simp)).2 g hg).1) ψ
      have e : QubitOperator.op (t :: A) = t.1 • t.2.op + QubitOperator.op A := by simp [QubitOperator.op]
      rw [e, LinearMap.add_apply, LinearMap.smul_apply]
      refine le_trans (nrm_add_le _ _ _) ?_
      rw [nrm_smul, h2, List.map_cons, List.sum_cons, add_mul]
      linarith

/-- C59 for arbitrary API gates and angles (apart from the half-turn `Rx` defect excluded by `FastOK`): the returned number
differs from the matrix element by no more than the simulator's `1e-16` truncations allow. -/
theorem C59_matrix_element_error_partial (n : ℕ) (Ubra Uket : Circuit) (Q : Option QubitOperator)
    (hb : Ubra.Fits n) (hk : Uket.Fits n) (ab : ∀ g ∈ Ubra, ApiGate g ∧ FastOK g) (ak : ∀ g ∈ Uket, ApiGate g ∧ FastOK g)
    (hQ : ∀ A ∈ Q, ∀ t ∈ A, t.2.Fits n ∧ ∀ g ∈ t.2, ApiGate g ∧ FastOK g) :
    ∃ z, computeOperatorMatrixElement n Ubra Uket Q = .ok z ∧
      ‖z - matrixElement n Ubra Uket Q‖ ≤
        (1 + 4e-16) ^ Ubra.length * (opErr Q * (1 + 4e-16) ^ Uket.length + opNorm1 Q * ((1 + 4e-16) ^ Uket.length - 1)) +
          ((1 + 4e-16) ^ Ubra.length - 1) * opNorm1 Q := by
  obtain ⟨q1, e1, w1, n1, p1⟩ := applyCircuit_near Uket (C60_init n).1 hk (fun g hg => (ak g hg).1) fun g hg => (ak g hg).2
  have n1' : q1.nqubit = n := n1
  have L0 : 0 ≤ opNorm1 Q := by
    cases Q with
    | none => simp [opNorm1]
    | some A =>
      refine List.sum_nonneg ?_
      intro x hx
      obtain ⟨t, _, rfl⟩ := List.mem_map.1 hx
      exact norm_nonneg _
  have E0 : 0 ≤ opErr Q := by
    cases Q with
    | none => simp [opErr]
    | some A =>
      refine List.sum_nonneg ?_
      intro x hx
      obtain ⟨t, _, rfl⟩ := List.mem_map.1 hx
      exact mul_nonneg (norm_nonneg _) (runErr_nonneg _)
  obtain ⟨q2, e2, w2, n2, p2⟩ : ∃ q2, q1.applyOptional Q = .ok q2 ∧ q2.WF ∧ q2.nqubit = n ∧ nrm n (q2.psi - optOp Q q1.psi) ≤ opErr Q * nrm n q1.psi := by
    cases Q with
    | none => exact ⟨q1, rfl, w1, n1', by simp [optOp, opErr, nrm_zero]⟩
    | some A =>
      obtain ⟨q2, a, b, c, d⟩ := C24_apply_operator_error q1 A w1 (by rw [n1']; exact hQ A rfl)
      rw [n1'] at d
      exact ⟨q2, a, b, c.trans n1', d⟩
  obtain ⟨q3, e3, w3, n3, p3⟩ := applyCircuit_near Ubra.adjoint w2 (by rw [n2]; exact adj_fits hb) (fun g hg => by
    obtain ⟨h', h1, rfl⟩ := adj_mem hg
    exact .adj (ab h' h1).1) fun g hg => by
    obtain ⟨h', h1, rfl⟩ := adj_mem hg
    exact (ab h' h1).2.adjoint (ab h' h1).1
  refine ⟨q3.psi 0, ?_, ?_⟩
  · unfold computeOperatorMatrixElement
    simp only [e1, except_ok_bind, e2, e3, psi_zero w3]; rfl
  · have hl : Ubra.adjoint.length = Ubra.length := by unfold Circuit.adjoint; rw [List.length_reverse, List.length_map]
    rw [n2, hl] at p3
    have hin : (Computer.init n).nqubit = n := rfl
    rw [hin, (C60_init n).2] at p1
    set e0 : St := Pi.single 0 1 with he0
    have one : nrm n e0 = 1 := by
      have : nrm n e0 ^ 2 = 1 := by
        have h : ((nrm n e0 ^ 2 : ℝ) : ℂ) = 1 := by
          rw [nrm_sq_inner, he0, inner_zero_state]; simp
        exact_mod_cast h
      nlinarith [nrm_nonneg n e0]
    have uk := nrm_circuit hk (fun g hg => api_unitary (ak g hg).1) e0
    rw [one] at uk p1
    set a := runErr Uket.length with hadef
    set d := runErr Ubra.length with hddef
    have a0 : 0 ≤ a := runErr_nonneg _
    have d0 : 0 ≤ d := runErr_nonneg _
    have ea : (1 + 4e-16 : ℝ) ^ Uket.length = 1 + a := by rw [hadef]; unfold runErr; ring
    have ed : (1 + 4e-16 : ℝ) ^ Ubra.length = 1 + d := by rw [hddef]; unfold runErr; ring
    rw [ea, ed]
    have q1n : nrm n q1.psi ≤ 1 + a := by
      have := nrm_add_le n (q1.psi - Uket.op e0) (Uket.op e0)
      rw [sub_add_cancel] at this; linarith
    have step2 : nrm n (q2.psi - optOp Q (Uket.op e0)) ≤ opErr Q * (1 + a) + opNorm1 Q * a := by
      have := nrm_add_le n (q2.psi - optOp Q q1.psi) (optOp Q (q1.psi - Uket.op e0))
      rw [map_sub, sub_add_sub_cancel, ← map_sub] at this
      have h1 := nrm_op_le (n := n) Q hQ (q1.psi - Uket.op e0)
      have h2 := mul_le_mul_of_nonneg_left p1 L0
      have h3 := mul_le_mul_of_nonneg_left q1n E0
      linarith
    have exn : nrm n (optOp Q (Uket.op e0)) ≤ opNorm1 Q := by
      have := nrm_op_le (n := n) Q hQ (Uket.op e0)
      rw [uk, mul_one] at this; exact this
    have q2n : nrm n q2.psi ≤ opNorm1 Q + (opErr Q * (1 + a) + opNorm1 Q * a) := by
      have := nrm_add_le n (q2.psi - optOp Q (Uket.op e0)) (optOp Q (Uket.op e0))
      rw [sub_add_cancel] at this; linarith
    have step3 : nrm n (q3.psi - Ubra.adjoint.op (optOp Q (Uket.op e0))) ≤
        d * (opNorm1 Q + (opErr Q * (1 + a) + opNorm1 Q * a)) + (opErr Q * (1 + a) + opNorm1 Q * a) := by
      have := nrm_add_le n (q3.psi - Ubra.adjoint.op q2.psi) (Ubra.adjoint.op (q2.psi - optOp Q (Uket.op e0)))
      rw [map_sub, sub_add_sub_cancel, ← map_sub, nrm_circuit (adj_fits hb) (fun g hg => by
        obtain ⟨h', h1, rfl⟩ := adj_mem hg
        exact api_unitary (.adj (ab h' h1).1))] at this
      have h3 := mul_le_mul_of_nonneg_left q2n d0
      linarith
    have fin : q3.psi 0 - matrixElement n Ubra Uket Q = inner n e0 (q3.psi - Ubra.adjoint.op (optOp Q (Uket.op e0))) := by
      rw [he0, inner_zero_state, Pi.sub_apply, element_eq hb fun g hg => (ab g hg).1]; rfl
    rw [fin]
    have := inner_le n e0 (q3.psi - Ubra.adjoint.op (optOp Q (Uket.op e0)))
    rw [one, one_mul] at this
    nlinarith

/-- C59, a concrete case: `⟨+|Z|1⟩ = -1/√2`, with `H` and `X` as bra and ket circuits. -/
theorem C59_example : computeOperatorMatrixElement 1 [gH 0] [gX 0] (some [(1, [gZ 0])]) = .ok (-((1 / Real.sqrt 2 : ℝ) : ℂ)) := by
  rw [C59_matrix_element_partial]
  · congr 1
    simp only [matrixElement, optOp, QubitOperator.op, List.map_cons, List.map_nil, List.sum_cons, List.sum_nil, Circuit.op_cons, Circuit.op_nil, one_mul, one_smul, add_zero,
      op_gH, op_gX, op_gZ, inner]
    rw [show 2 ^ 1 = 2 by norm_num, Finset.sum_range_succ, Finset.sum_range_one]
    simp [opX_apply, opZ_apply, flipBit]
  · intro g hg; simp at hg; subst hg; simp [gH]
  · intro g hg; simp at hg; subst hg; simp [gX]
  · intro g hg; simp at hg; subst hg; exact ⟨.make (make_H 0 0), exact_H 0⟩
  · intro g hg; simp at hg; subst hg; exact (C08_hypotheses_constant_gates (make_X 0 0) rfl).1
  · intro A hA t ht
    simp at hA; subst hA; simp at ht; subst ht
    refine ⟨?_, ?_⟩
    · intro g hg; simp at hg; subst hg; simp [gZ]
    · intro g hg; simp at hg; subst hg; exact (C08_hypotheses_constant_gates (make_Z 0 0) rfl).1

end QF
