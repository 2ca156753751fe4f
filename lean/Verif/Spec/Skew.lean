import Verif.Spec.OperatorOp
import Mathlib.Data.Complex.Basic

/-!
Specification layer: real antisymmetric operators that couple every determinant to exactly one other determinant
(`κ = t - t†` for a string `t` of ladder operators is of this form).
-/
namespace QF

/-- `K|I⟩` is a real multiple of `|I ⊕ m⟩`, and the real matrix of `K` is antisymmetric -/
def RealSkew (m : ℕ) (K : Op) : Prop :=
  ∃ k : ℕ → ℝ, (∀ ψ I, K ψ I = k I * ψ (I ^^^ m)) ∧ ∀ I, k (I ^^^ m) = -k I

end QF
