import Verif.Spec.Fermion

/-!
Specification layer: determinants and excitations.  A determinant on `n` spin orbitals is a number below `2 ^ n`; bit `p` is
the occupation of spin orbital `p`; even orbitals are alpha, odd ones beta.
-/
namespace QF

/-- the orbitals occupied in `r` and empty in `d`, highest first -/
def holes (n r d : ℕ) : List ℕ := (List.range n).reverse.filter fun p => r.testBit p && !d.testBit p

/-- number of electrons with spin `σ` (0 alpha, 1 beta) among `k` spatial orbitals -/
def spinNum (σ k d : ℕ) : ℕ := (List.range k).countP fun p => d.testBit (2 * p + σ)

/-- the occupation of the orbitals of one spin as a number: bit `p` is spatial orbital `p` -/
def spinVal (σ k d : ℕ) : ℕ := ∑ p ∈ Finset.range k, if d.testBit (2 * p + σ) then 2 ^ p else 0

/-- `r` and `d` have as many alpha electrons and as many beta electrons -/
def SameSpin (k r d : ℕ) : Prop := spinNum 0 k r = spinNum 0 k d ∧ spinNum 1 k r = spinNum 1 k d

/-- product of the irreps (as XOR of their Cotton numbers) of spin orbitals -/
def irrepOf (irr : List ℕ) (l : List ℕ) : ℕ := (l.map fun p => irr.getD (p / 2) 0).foldr (· ^^^ ·) 0

/-- the excitation from `r` to `d` moves between one and `max` electrons, keeps the number of alpha and of beta electrons and is
totally symmetric -/
def Allowed (k r : ℕ) (irr : List ℕ) (max d : ℕ) : Prop :=
  SameSpin k r d ∧ 1 ≤ (holes (2 * k) r d).length ∧ (holes (2 * k) r d).length ≤ max ∧
    irrepOf irr (holes (2 * k) r d ++ holes (2 * k) d r) = 0

/-- within each spin the occupied orbitals are the lowest ones -/
def Aufbau (k r : ℕ) : Prop := ∀ σ, σ < 2 → ∀ p q, p < q → q < k → r.testBit (2 * q + σ) = true → r.testBit (2 * p + σ) = true

/-- a generalised single or double excitation on `k` spatial orbitals, `(creation, annihilation)`: descending index lists of
one or of two orbitals that are not the same list, as many alpha orbitals created as annihilated, totally symmetric -/
structure GenExc (k : ℕ) (irr : List ℕ) (x : List ℕ × List ℕ) : Prop where
  desc : (x.1.Pairwise fun p q => q < p) ∧ x.2.Pairwise fun p q => q < p
  bound : (∀ p ∈ x.1, p < 2 * k) ∧ ∀ p ∈ x.2, p < 2 * k
  rank : (x.1.length = 1 ∧ x.2.length = 1) ∨ (x.1.length = 2 ∧ x.2.length = 2)
  ne : x.1 ≠ x.2
  spin : (x.1.countP fun p => p % 2 == 0) = x.2.countP fun p => p % 2 == 0
  sym : irrepOf irr (x.2 ++ x.1) = 0

/-- a rank-conserving excitation on `n` spin orbitals, "create `c`, annihilate `a`", with descending index lists -/
structure Excit (n : ℕ) (c a : List ℕ) : Prop where
  desc_c : c.Pairwise fun p q => q < p
  desc_a : a.Pairwise fun p q => q < p
  rank : c.length = a.length
  ne : c ≠ a
  bound_c : ∀ p ∈ c, p < n
  bound_a : ∀ p ∈ a, p < n

end QF
