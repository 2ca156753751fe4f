import Verif.Model.QubitOperator
import Verif.Spec.Pauli
import Verif.Model.Api

/-!
Specification layer: the linear operator a `QubitOperator` stands for.
-/
namespace QF

/-- `Σ_k z_k · (product of the gates of circuit k, written left to right)` -/
noncomputable def QubitOperator.opLR (A : QubitOperator) : Op := (A.map fun t => t.1 • t.2.opLR).sum

/-- `Σ_k z_k · (execution of circuit k)` -/
noncomputable def QubitOperator.op (A : QubitOperator) : Op := (A.map fun t => t.1 • t.2.op).sum

/-- all terms are products of X, Y, Z gates -/
def QubitOperator.IsPauli (A : QubitOperator) : Prop := ∀ t ∈ A, ∀ g ∈ t.2, ApiGate g ∧ (g.label = "X" ∨ g.label = "Y" ∨ g.label = "Z")

/-- what a simplification may drop: distinct canonical strings, each with a coefficient of modulus at most 1e-12 -/
def QubitOperator.Negligible (D : QubitOperator) : Prop :=
  (D.map Prod.snd).Nodup ∧ ∀ t ∈ D, t.2.Canonical ∧ ‖t.1‖ ≤ 1e-12

theorem QubitOperator.Negligible.nil : QubitOperator.Negligible [] := by simp [QubitOperator.Negligible]

/-- the entries of a simplified operator: distinct canonical strings in increasing order -/
structure QubitOperator.Normal (R : QubitOperator) : Prop where
  canonical : ∀ t ∈ R, t.2.Canonical
  sorted : R.Pairwise (fun a b => a.2.lt b.2 = true)

end QF
