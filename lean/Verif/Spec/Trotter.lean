import Verif.Spec.Exp

/-!
Specification layer: the quantity that controls the first-order Trotter error.
-/
namespace QF

open Classical in
/-- the sum of `‖z c_i‖ ‖z c_j‖` over the pairs `i < j` of terms of the operator that do not commute with each other -/
noncomputable def ncWeight (z : ℂ) : QubitOperator → ℝ
  | [] => 0
  | t :: ts => (ts.map fun s => if Commute s.2.op t.2.op then 0 else ‖z * s.1‖ * ‖z * t.1‖).sum + ncWeight z ts

end QF
