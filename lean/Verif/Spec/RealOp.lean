import Verif.Spec.Ops
import Mathlib.Data.Complex.Basic

/-!
Specification layer: operators with a real matrix in the determinant basis.
-/
namespace QF

/-- the complex conjugate of all amplitudes -/
def conjSt (ψ : St) : St := fun I => (starRingEnd ℂ) (ψ I)

/-- the matrix of `A` in the computational basis is real -/
def RealOp (A : Op) : Prop := ∀ ψ, A (conjSt ψ) = conjSt (A ψ)

end QF
