import Verif.Spec.Fermion
import Verif.Spec.Exp

/-!
Specification layer: the excitation operators that `compact_excitation_circuit` exponentiates.
-/
namespace QF

/-- `κ = t - t†` with `t = p₁† p₂† … q₁ q₂ …`, for fermions (`qubit = false`) or qubits (`qubit = true`) -/
noncomputable def kappa (qubit : Bool) (cre ann : List ℕ) : Op :=
  if qubit then qubitString cre ann - qubitString ann.reverse cre.reverse
  else fermiString cre ann - fermiString ann.reverse cre.reverse

/-- number of ascending pairs of a list: positions `i < j` with `l[i] < l[j]` -/
def asc : List ℕ → ℕ
  | [] => 0
  | p :: l => l.countP (p < ·) + asc l

end QF
