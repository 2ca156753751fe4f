import Verif.Spec.GateOp
import Mathlib.Algebra.BigOperators.Ring.Finset

/-!
Specification layer: inner product and expectation value on an `n`-qubit register.
-/
namespace QF

/-- `⟨φ|ψ⟩ = ∑_{I < 2^n} conj(φ_I) ψ_I` -/
noncomputable def inner (n : ℕ) (φ ψ : St) : ℂ :=
  ∑ I ∈ Finset.range (2 ^ n), (starRingEnd ℂ) (φ I) * ψ I

/-- the state lives on `n` qubits: no amplitude outside the register -/
def OnReg (n : ℕ) (ψ : St) : Prop := ∀ I, 2 ^ n ≤ I → ψ I = 0

/-- Euclidean norm of the amplitudes on `n` qubits -/
noncomputable def nrm (n : ℕ) (ψ : St) : ℝ := Real.sqrt (∑ I ∈ Finset.range (2 ^ n), ‖ψ I‖ ^ 2)

end QF
