import Verif.Spec.Ops
import Mathlib.Analysis.SpecialFunctions.Complex.Circle
import Mathlib.Analysis.SpecialFunctions.Trigonometric.Basic
import Mathlib.Algebra.BigOperators.Intervals

/-!
Specification layer: the discrete Fourier transform on a block of qubits.
The block of length `L` starting at qubit `na` holds the number whose most significant bit is qubit `na`.
-/
namespace QF

/-- the number held by qubits `na … na+L-1` of basis state `I`, qubit `na` most significant -/
def blockVal (I na L : ℕ) : ℕ := ∑ i ∈ Finset.range L, (I.testBit (na + i)).toNat * 2 ^ (L - 1 - i)

/-- the basis state with number `x` written to the block and the other qubits of `I` -/
def setBlock (I na : ℕ) : ℕ → ℕ → ℕ
  | 0, _ => I
  | L + 1, x => setBit (setBlock I (na + 1) L x) na (x.testBit L)

/-- what `setBlock` does, bit by bit -/
theorem setBlock_testBit (I : ℕ) (L : ℕ) : ∀ (na x q : ℕ), (setBlock I na L x).testBit q =
    if na ≤ q ∧ q < na + L then x.testBit (L - 1 - (q - na)) else I.testBit q := by
  induction L with
  | zero => intro na x q; rw [if_neg (by omega)]; rfl
  | succ L ih =>
    intro na x q
    rw [setBlock, testBit_setBit, ih]
    by_cases h : q = na
    · subst h; simp
    · rw [if_neg (by exact h)]
      by_cases h1 : na + 1 ≤ q ∧ q < na + 1 + L
      · rw [if_pos h1, if_pos (by omega)]
        congr 1; omega
      · rw [if_neg h1, if_neg (by omega)]

/-- `U` is the discrete Fourier transform of the block: as a matrix, `⟨y|U|x⟩ = 2^{-L/2} exp(2πi x y / 2^L)` -/
def IsDFT (na L : ℕ) (U : Op) : Prop := ∀ (ψ : St) (I : ℕ), U ψ I =
  ((1 / Real.sqrt (2 ^ L) : ℝ) : ℂ) * ∑ x ∈ Finset.range (2 ^ L),
    Complex.exp (2 * Real.pi * Complex.I * ((x * blockVal I na L : ℕ) : ℂ) / ((2 ^ L : ℕ) : ℂ)) * ψ (setBlock I na L x)

end QF
