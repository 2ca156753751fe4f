import Verif.Spec.Fermion
import Verif.Spec.Inner
import Mathlib.Algebra.BigOperators.Ring.Finset

/-!
Specification layer: the electronic Hamiltonian in a basis of spatial orbitals, and states with a frozen core.

Spatial orbital `i` gives the spin orbitals `2 i` (alpha) and `2 i + 1` (beta).
-/
namespace QF

/-- one-electron integrals in spin orbitals: `⟨p|h|q⟩`, zero unless the spins agree -/
noncomputable def spinOne (h : ℕ → ℕ → ℝ) (p q : ℕ) : ℝ := if p % 2 = q % 2 then h (p / 2) (q / 2) else 0

/-- two-electron integrals in spin orbitals: electron 1 goes from `s` to `p`, electron 2 from `r` to `q`;
`(ps|qr)` in Mulliken notation, zero unless the spins agree -/
noncomputable def spinTwo (g : ℕ → ℕ → ℕ → ℕ → ℝ) (p q r s : ℕ) : ℝ :=
  if p % 2 = s % 2 ∧ q % 2 = r % 2 then g (p / 2) (s / 2) (q / 2) (r / 2) else 0

/-- `E + ∑ h_pq p† q + 1/2 ∑ v_pqrs p† q† r s` over `n` spin orbitals -/
noncomputable def twoBodyOp (n : ℕ) (E : ℝ) (h : ℕ → ℕ → ℝ) (v : ℕ → ℕ → ℕ → ℕ → ℝ) : Op :=
  (E : ℂ) • 1 + ∑ p ∈ Finset.range n, ∑ q ∈ Finset.range n, (h p q : ℂ) • (aDag p * aAnn q) +
    (1 / 2 : ℂ) • ∑ p ∈ Finset.range n, ∑ q ∈ Finset.range n, ∑ r ∈ Finset.range n, ∑ s ∈ Finset.range n,
      (v p q r s : ℂ) • (aDag p * aDag q * aAnn r * aAnn s)

/-- the electronic Hamiltonian of `m` spatial orbitals with scalar `E`, integrals `h_ij` and `(ij|kl)` -/
noncomputable def spatialHam (m : ℕ) (E : ℝ) (h : ℕ → ℕ → ℝ) (g : ℕ → ℕ → ℕ → ℕ → ℝ) : Op :=
  twoBodyOp (2 * m) E (spinOne h) (spinTwo g)

/-- the usual symmetries of real integrals -/
structure RealIntegrals (h : ℕ → ℕ → ℝ) (g : ℕ → ℕ → ℕ → ℕ → ℝ) : Prop where
  one : ∀ i j, h i j = h j i
  left : ∀ i j k l, g i j k l = g j i k l
  right : ∀ i j k l, g i j k l = g i j l k
  swap : ∀ i j k l, g i j k l = g k l i j

/-- the energy of a doubly occupied core -/
noncomputable def coreEnergy (f : ℕ) (h : ℕ → ℕ → ℝ) (g : ℕ → ℕ → ℕ → ℕ → ℝ) : ℝ :=
  2 * ∑ i ∈ Finset.range f, h i i + ∑ i ∈ Finset.range f, ∑ j ∈ Finset.range f, (2 * g i i j j - g i j j i)

/-- the one-electron integrals in the field of a doubly occupied core -/
noncomputable def coreOei (f : ℕ) (h : ℕ → ℕ → ℝ) (g : ℕ → ℕ → ℕ → ℕ → ℝ) (i j : ℕ) : ℝ :=
  h i j + ∑ k ∈ Finset.range f, (2 * g i j k k - g i k k j)

/-- determinant `J` of the orbitals from `c` on, with the orbitals below `c` all occupied -/
def coreDet (c J : ℕ) : ℕ := 2 ^ c * J + (2 ^ c - 1)

/-- a state of the orbitals from `c` on (renumbered from 0), with the orbitals below `c` all occupied -/
def withCore (c : ℕ) : Op where
  toFun ψ I := if I % 2 ^ c = 2 ^ c - 1 then ψ (I / 2 ^ c) else 0
  map_add' ψ φ := by funext I; simp only [Pi.add_apply]; split_ifs <;> ring
  map_smul' a ψ := by funext I; simp only [Pi.smul_apply, smul_eq_mul, RingHom.id_apply]; split_ifs <;> ring

end QF
