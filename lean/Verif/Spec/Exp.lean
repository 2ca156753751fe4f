import Verif.Spec.OperatorOp
import Mathlib.Analysis.Complex.Basic
import Mathlib.Topology.Algebra.InfiniteSum.Defs
import Mathlib.Data.Nat.Factorial.Basic

/-!
Specification layer: the exponential of an operator as the sum of its power series, amplitude by amplitude.
-/
namespace QF

/-- `U = exp A`: every amplitude of `U ψ` is the sum of the exponential series `∑ₖ (Aᵏ ψ)/k!` -/
def IsExp (A U : Op) : Prop := ∀ (ψ : St) (I : ℕ), HasSum (fun k : ℕ => ((k.factorial : ℂ))⁻¹ * (A ^ k) ψ I) (U ψ I)

/-- operators applied one after the other, the head of the list first -/
def applyInOrder : List Op → Op
  | [] => 1
  | U :: Us => applyInOrder Us * U

/-- a Pauli string with identities: every gate is the `I`, `X`, `Y` or `Z` made by `qforte.gate`, on distinct qubits -/
structure Circuit.IPauliString (c : Circuit) : Prop where
  gates : ∀ g ∈ c, IsIXYZ g.label ∧ makeGate g.label g.target g.target 0 = .ok g
  distinct : (c.map Gate.target).Nodup

end QF
