import Verif.Model.ComputerOps

/-!
Model of `utils/compute_matrix_element.py`.
-/
namespace QF

/-- `if QOp is not None: comp.apply_operator(QOp)`, compute_matrix_element.py:40-41 -/
noncomputable def Computer.applyOptional (q : Computer) : Option QubitOperator → Except Exc Computer
  | some A => q.applyOperator A
  | none => pure q

/-- `compute_operator_matrix_element(n_qubit, U_bra, U_ket, QOp=None)`, compute_matrix_element.py:4-43 -/
noncomputable def computeOperatorMatrixElement (n : ℕ) (Ubra Uket : Circuit) (QOp : Option QubitOperator := none) : Except Exc ℂ := do
  let comp := Computer.init n
  let comp ← comp.applyCircuit Uket
  let comp ← comp.applyOptional QOp
  let comp ← comp.applyCircuit Ubra.adjoint
  match comp.coeff[0]? with
  | some z => pure z
  | none => .error .outOfRange

end QF
