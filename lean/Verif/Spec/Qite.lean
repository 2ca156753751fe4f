import Verif.Spec.UCC
import Verif.Spec.CircuitOp

/-!
Specification layer: one step of quantum imaginary time evolution (Motta et al., Nature Physics 16, 205, eqs. 4-5).
-/
namespace QF

/-- `Σ_I x_I σ_I ψ` -/
noncomputable def pauliComb (σ : List Circuit) (x : List ℝ) (ψ : St) : St := (List.zipWith (fun c a => ((a : ℝ) : ℂ) • c.op ψ) σ x).sum

/-- the first-order step of normalised imaginary time evolution: `(1 - db H) ψ / √c`, `c = 1 - 2 db ⟨H⟩` -/
noncomputable def imagStep (n : ℕ) (H : Op) (db : ℝ) (ψ : St) : St :=
  ((1 / Real.sqrt (1 - 2 * db * energy n H ψ) : ℝ) : ℂ) • (ψ - (db : ℂ) • H ψ)

/-- among all real coefficients, `x` gives the unitary step `ψ - i db Σ_I x_I σ_I ψ` (to first order) nearest to the imaginary-time step -/
def NearestStep (n : ℕ) (H : Op) (db : ℝ) (σ : List Circuit) (ψ : St) (x : List ℝ) : Prop :=
  x.length = σ.length ∧ ∀ y : List ℝ, y.length = σ.length →
    nrm n (imagStep n H db ψ - (ψ - (Complex.I * db) • pauliComb σ x ψ)) ≤ nrm n (imagStep n H db ψ - (ψ - (Complex.I * db) • pauliComb σ y ψ))

/-- `b_σ = Re(-i/√c ⟨ψ|σ H|ψ⟩) = Im⟨ψ|σ H|ψ⟩ / √c` -/
noncomputable def rhsElem (n : ℕ) (H : Op) (db : ℝ) (ψ : St) (σ : Circuit) : ℝ :=
  (inner n ψ (σ.op (H ψ))).im / Real.sqrt (1 - 2 * db * energy n H ψ)

end QF
