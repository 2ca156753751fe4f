import Verif.Spec.Inner
import Verif.Spec.Excitation

/-!
Symmetry sectors of the determinants of `n` spin orbitals: particle number, projection of the spin, spatial irrep.
-/
namespace QF

/-- the number of electrons of the determinant `I` -/
def electrons (n I : ℕ) : ℕ := ((Finset.range n).filter fun p => I.testBit p).card

/-- `S_z` of the determinant `I`: even spin orbitals are alpha, odd ones beta -/
noncomputable def spinOf (n I : ℕ) : ℝ := ∑ p ∈ Finset.range n, if I.testBit p then (if p % 2 = 0 then 1 / 2 else -1 / 2) else 0

/-- the irrep of the determinant `I`, spin orbital `p` belonging to the irrep `orb[p / 2]`: in the Cotton ordering of an
Abelian group the product of irreps is the exclusive or of their indices -/
def detIrrep (orb : List ℕ) (n I : ℕ) : ℕ := irrepOf orb ((List.range n).filter fun p => I.testBit p)

open Classical in
/-- the weight in `ψ` of the determinants that satisfy `P` -/
noncomputable def sectorWeight (n : ℕ) (ψ : St) (P : ℕ → Prop) : ℝ := ∑ I ∈ (Finset.range (2 ^ n)).filter P, ‖ψ I‖ ^ 2

/-- the mean of a diagonal quantity -/
noncomputable def diagMean (n : ℕ) (ψ : St) (f : ℕ → ℝ) : ℝ := ∑ I ∈ Finset.range (2 ^ n), f I * ‖ψ I‖ ^ 2

end QF
