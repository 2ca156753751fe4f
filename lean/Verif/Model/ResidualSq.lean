import Verif.Model.PQE

/-!
Model of the objective function of the scipy solvers of the PQE classes, `get_sum_residual_square` of abc/uccpqeabc.py.
-/
namespace QF

open SQOperator (DescSort)
open QubitOperator (SortOracle)

/-- `get_sum_residual_square(tamps)`, uccpqeabc.py:101-106: `np.sum(np.square(np.abs(residual_vector)))`.  The asserted imaginary part is that of a real
number, so the assertion holds and `np.real` changes nothing. -/
noncomputable def PqeAlg.sumResidualSquare (o : DescSort) (so : SortOracle) (A : PqeAlg) (dets : List (ℕ × ℂ)) (ts : List ℝ) : Except Exc ℝ := do
  let r ← A.residualVector o so dets ts
  pure ((r.map fun z => ‖z‖ ^ 2).sum)

end QF
