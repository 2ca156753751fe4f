import Verif.Spec.UCC
import Verif.Spec.Inner

/-!
Specification layer: variational (Ritz) energies in the span of finitely many states.
-/
namespace QF

/-- the state `Σ_{i<k} c_i φ_i` -/
noncomputable def spanState (k : ℕ) (φ : ℕ → St) (c : ℕ → ℂ) : St := ∑ i ∈ Finset.range k, c i • φ i

/-- the energies `es` and the coefficient vectors `C · 0, C · 1, …` are Ritz pairs of `H` in the span of `φ 0, …, φ (k-1)`: the states
`Σ_i C_ij φ_i` are orthonormal and `H` is diagonal in them, with the energies on the diagonal -/
def RitzPairs (n k : ℕ) (H : Op) (φ : ℕ → St) (es : List ℂ) (C : ℕ → ℕ → ℂ) : Prop :=
  ∀ i < es.length, ∀ j < es.length,
    inner n (spanState k φ (C · i)) (spanState k φ (C · j)) = (if i = j then 1 else 0) ∧
    inner n (spanState k φ (C · i)) (H (spanState k φ (C · j))) = if i = j then es.getD j 0 else 0

end QF
