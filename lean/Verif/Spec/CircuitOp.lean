import Verif.Spec.GateDen
import Verif.Model.Circuit

/-!
Specification layer: what a circuit does.  The first gate in the list acts first.
-/
namespace QF

/-- operator of a circuit: gates act in list order -/
def Circuit.op : Circuit → Op
  | [] => 1
  | g :: c => Circuit.op c * g.op

/-- every qubit a gate of the circuit touches is below `n` -/
def Circuit.Fits (n : ℕ) (c : Circuit) : Prop := ∀ g ∈ c, g.target < n ∧ g.control < n

@[simp] theorem Circuit.op_nil : Circuit.op [] = 1 := rfl
@[simp] theorem Circuit.op_cons (g : Gate) (c : Circuit) : Circuit.op (g :: c) = Circuit.op c * g.op := rfl

theorem Circuit.op_append (c d : Circuit) : Circuit.op (c ++ d) = Circuit.op d * Circuit.op c := by
  induction c with
  | nil => simp
  | cons g c ih => simp [ih, mul_assoc]

end QF
