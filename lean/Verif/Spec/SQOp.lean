import Verif.Spec.Fermion
import Verif.Model.SQOperator

/-! Specification layer: the linear operator denoted by a second-quantised operator. -/
namespace QF

/-- `Σ z · p₁† p₂† … q₁ q₂ …` -/
noncomputable def SQOperator.op (A : SQOperator) : Op := (A.map fun t => t.1 • fermiString t.2.1 t.2.2).sum

/-- the same sum with qubit ladder operators instead of fermionic ones -/
noncomputable def SQOperator.qop (A : SQOperator) : Op := (A.map fun t => t.1 • qubitString t.2.1 t.2.2).sum

/-- no term creates, or annihilates, the same orbital twice -/
def SQOperator.Distinct (A : SQOperator) : Prop := ∀ t ∈ A, t.2.1.Nodup ∧ t.2.2.Nodup

/-- indices descend in the creation and in the annihilation part -/
def SQTerm.Descending (t : SQTerm) : Prop := t.2.1.Pairwise (fun p q => q ≤ p) ∧ t.2.2.Pairwise (fun p q => q ≤ p)

end QF
