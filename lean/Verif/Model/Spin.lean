import Verif.Model.SQOperator

/-!
Model of `utils/spin_operators.py`.
-/
namespace QF

/-- `range(0, n, 2)` -/
def evens (n : ℕ) : List ℕ := (List.range ((n + 1) / 2)).map fun i => 2 * i

/-- `total_spin_z(n_qubits)`, spin_operators.py:47-71 -/
noncomputable def totalSpinZ (o : SQOperator.DescSort) (n : ℕ) : Except Exc QubitOperator := do
  let sq := (evens n).foldl (fun (A : SQOperator) i => (A.addTerm 0.5 [i] [i]).addTerm (-0.5) [i + 1] [i + 1]) []
  return (← sq.jwTransform o false).1

/-- `total_spin_lowering(n_qubits)`, spin_operators.py:74-97 -/
noncomputable def totalSpinLowering (o : SQOperator.DescSort) (n : ℕ) : Except Exc QubitOperator := do
  let sq := (evens n).foldl (fun (A : SQOperator) i => A.addTerm 1 [i + 1] [i]) []
  return (← sq.jwTransform o false).1

/-- `total_spin_raising(n_qubits)`, spin_operators.py:100-123 -/
noncomputable def totalSpinRaising (o : SQOperator.DescSort) (n : ℕ) : Except Exc QubitOperator := do
  let sq := (evens n).foldl (fun (A : SQOperator) i => A.addTerm 1 [i] [i + 1]) []
  return (← sq.jwTransform o false).1

/-- `total_spin_squared(n_qubits)`, spin_operators.py:10-44 -/
noncomputable def totalSpinSquared (o : SQOperator.DescSort) (n : ℕ) : Except Exc QubitOperator := do
  let sz ← totalSpinZ o n
  let sm ← totalSpinLowering o n
  let sp ← totalSpinRaising o n
  let sq := QubitOperator.addOp [] sm
  let sq ← sq.operatorProduct sp true true
  let sq := sq.addOp sz
  let sz2 := QubitOperator.addOp [] sz
  let sz2 ← sz2.operatorProduct sz true true
  let sq := sq.addOp sz2
  sq.simplify

end QF
