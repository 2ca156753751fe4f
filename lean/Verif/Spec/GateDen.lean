import Verif.Model.Gate
import Verif.Spec.GateOp

/-!
Specification layer: the linear operator a gate object denotes.
-/
namespace QF

/-- operator denoted by a gate -/
def Gate.op (g : Gate) : Op := matOp g.target g.control g.mat

end QF
