import Verif.Spec.Ops
import Verif.Spec.Bits
import Mathlib.Algebra.BigOperators.Group.List.Basic

/-!
Specification layer: fermionic ladder operators and second-quantised operators, acting on determinants.

Determinant `I` has spin orbital `p` occupied iff bit `p` of `I` is set.  `a_p` removes an electron from orbital `p`,
`a_p†` adds one, with the sign `(-1)^{number of occupied orbitals below p}`.
-/
namespace QF

/-- number of occupied orbitals below `p` -/
def nBelow (I p : ℕ) : ℕ := (List.range p).countP I.testBit

/-- `(-1)^{number of occupied orbitals below p}` -/
def fsign (I p : ℕ) : ℂ := (-1) ^ nBelow I p

/-- Ladder operator on orbital `p`, in terms of amplitudes: the result has amplitude only on determinants whose orbital
`p` is occupied (`cre = true`, creation) or empty (`cre = false`, annihilation), taken from the determinant
with orbital `p` flipped. -/
def ladder (cre : Bool) (p : ℕ) : Op where
  toFun ψ I := if I.testBit p = cre then fsign I p * ψ (flipBit I p) else 0
  map_add' ψ φ := by funext I; simp only [Pi.add_apply]; split_ifs <;> ring
  map_smul' a ψ := by funext I; simp only [Pi.smul_apply, smul_eq_mul, RingHom.id_apply]; split_ifs <;> ring

/-- creation and annihilation operators -/
abbrev aDag (p : ℕ) : Op := ladder true p
abbrev aAnn (p : ℕ) : Op := ladder false p

/-- the product `p₁† p₂† … q₁ q₂ …` -/
noncomputable def fermiString (cre ann : List ℕ) : Op := (cre.map aDag).prod * (ann.map aAnn).prod

/-- Qubit ("hard-core boson") ladder operator: as `ladder` without the sign. -/
def qladder (cre : Bool) (p : ℕ) : Op where
  toFun ψ I := if I.testBit p = cre then ψ (flipBit I p) else 0
  map_add' ψ φ := by funext I; simp only [Pi.add_apply]; split_ifs <;> ring
  map_smul' a ψ := by funext I; simp only [Pi.smul_apply, smul_eq_mul, RingHom.id_apply]; split_ifs <;> ring

noncomputable def qubitString (cre ann : List ℕ) : Op := (cre.map (qladder true)).prod * (ann.map (qladder false)).prod

end QF
