import Verif.Spec.Bits
import Mathlib.Data.Complex.Basic
import Mathlib.Algebra.Module.LinearMap.End
import Mathlib.Algebra.Module.Pi
import Mathlib.Algebra.Algebra.Basic
import Mathlib.LinearAlgebra.Matrix.Notation

/-!
Specification layer: states and linear operators.

A state is the function giving the amplitude of each basis state `I : ℕ`; an operator is a linear
endomorphism of states.  Operators form a (non-commutative) ring: `A * B` is "first `B`, then `A`".
-/

namespace QF

/-- amplitudes of the basis states -/
abbrev St := ℕ → ℂ
/-- linear operators on states; `A * B` means `A ∘ B` -/
abbrev Op := Module.End ℂ St

/-- 2×2 matrix indexed by bits (row = new bit, column = old bit) -/
abbrev M2 := Bool → Bool → ℂ

/-- The 2×2 matrix `m` acting on qubit `t`, identity on all other qubits:
`(op1 t m ψ)(I) = ∑_b m[I_t, b] ψ(I with bit t := b)`. -/
def op1 (t : ℕ) (m : M2) : Op where
  toFun ψ I := m (I.testBit t) false * ψ (setBit I t false) + m (I.testBit t) true * ψ (setBit I t true)
  map_add' ψ φ := by funext I; simp only [Pi.add_apply]; ring
  map_smul' a ψ := by funext I; simp only [Pi.smul_apply, smul_eq_mul, RingHom.id_apply]; ring

/-- 4×4 matrix indexed by (control bit, target bit) -/
abbrev M4 := Bool → Bool → Bool → Bool → ℂ

/-- The 4×4 matrix `m` acting on qubits `c` (first, high) and `t` (second, low) with the identity on
all other qubits: `(op2 t c m ψ)(I) = ∑_{x,y} m[(I_c,I_t),(x,y)] ψ(I with bit c := x, bit t := y)`. -/
def op2 (t c : ℕ) (m : M4) : Op where
  toFun ψ I :=
    m (I.testBit c) (I.testBit t) false false * ψ (setBit (setBit I c false) t false) +
    m (I.testBit c) (I.testBit t) false true * ψ (setBit (setBit I c false) t true) +
    m (I.testBit c) (I.testBit t) true false * ψ (setBit (setBit I c true) t false) +
    m (I.testBit c) (I.testBit t) true true * ψ (setBit (setBit I c true) t true)
  map_add' ψ φ := by funext I; simp only [Pi.add_apply]; ring
  map_smul' a ψ := by funext I; simp only [Pi.smul_apply, smul_eq_mul, RingHom.id_apply]; ring

theorem op1_apply (t : ℕ) (m : M2) (ψ : St) (I : ℕ) :
    op1 t m ψ I = m (I.testBit t) false * ψ (setBit I t false)
      + m (I.testBit t) true * ψ (setBit I t true) := rfl

theorem op2_apply (t c : ℕ) (m : M4) (ψ : St) (I : ℕ) :
    op2 t c m ψ I =
    m (I.testBit c) (I.testBit t) false false * ψ (setBit (setBit I c false) t false) +
    m (I.testBit c) (I.testBit t) false true * ψ (setBit (setBit I c false) t true) +
    m (I.testBit c) (I.testBit t) true false * ψ (setBit (setBit I c true) t false) +
    m (I.testBit c) (I.testBit t) true true * ψ (setBit (setBit I c true) t true) := rfl

/-- product of 2×2 matrices -/
def M2.mul (m m' : M2) : M2 := fun a b => m a false * m' false b + m a true * m' true b
/-- identity matrix -/
def M2.one : M2 := fun a b => if a = b then 1 else 0
def M2.IsDiag (m : M2) : Prop := m false true = 0 ∧ m true false = 0

def M4.mul (m m' : M4) : M4 := fun a b x y =>
  m a b false false * m' false false x y + m a b false true * m' false true x y +
  m a b true false * m' true false x y + m a b true true * m' true true x y
def M4.one : M4 := fun a b x y => if a = x ∧ b = y then 1 else 0

theorem Op.ext_iff' {A B : Op} : A = B ↔ ∀ ψ I, A ψ I = B ψ I := by
  constructor
  · rintro rfl ψ I; rfl
  · intro h; apply LinearMap.ext; intro ψ; funext I; exact h ψ I

theorem Op.ext' {A B : Op} (h : ∀ ψ I, A ψ I = B ψ I) : A = B := Op.ext_iff'.2 h

theorem op1_mul (t : ℕ) (m m' : M2) : op1 t m * op1 t m' = op1 t (M2.mul m m') := by
  apply Op.ext'; intro ψ I
  simp only [Module.End.mul_apply, op1_apply, testBit_setBit, if_true, setBit_setBit, M2.mul]
  ring

theorem op1_one (t : ℕ) : op1 t M2.one = 1 := by
  apply Op.ext'; intro ψ I
  simp only [op1_apply, M2.one, Module.End.one_apply]
  cases h : I.testBit t
  · rw [setBit_eq_self h]; simp
  · rw [setBit_eq_self h]; simp

theorem op1_comm {t s : ℕ} (h : t ≠ s) (m m' : M2) : Commute (op1 t m) (op1 s m') := by
  apply Op.ext'; intro ψ I
  simp only [Module.End.mul_apply, op1_apply, testBit_setBit, h, h.symm, if_false]
  simp only [setBit_comm I h]
  ring

theorem op1_add (t : ℕ) (m m' : M2) : op1 t m + op1 t m' = op1 t (fun a b => m a b + m' a b) := by
  apply Op.ext'; intro ψ I
  simp only [LinearMap.add_apply, Pi.add_apply, op1_apply]; ring

theorem op1_smul (t : ℕ) (a : ℂ) (m : M2) : a • op1 t m = op1 t (fun x y => a * m x y) := by
  apply Op.ext'; intro ψ I
  simp only [LinearMap.smul_apply, Pi.smul_apply, smul_eq_mul, op1_apply]; ring

theorem op2_mul {t c : ℕ} (h : t ≠ c) (m m' : M4) : op2 t c m * op2 t c m' = op2 t c (M4.mul m m') := by
  apply Op.ext'; intro ψ I
  have e1 : ∀ x y x' y', setBit (setBit (setBit (setBit I c x) t y) c x') t y' = setBit (setBit I c x') t y' := by
    intro x y x' y'
    rw [setBit_comm (setBit I c x) h y x', setBit_setBit, setBit_setBit]
  simp only [Module.End.mul_apply, op2_apply, testBit_setBit, if_true, h, h.symm, if_false, e1, M4.mul]
  ring

theorem op2_one (t c : ℕ) : op2 t c M4.one = 1 := by
  apply Op.ext'; intro ψ I
  simp only [op2_apply, M4.one, Module.End.one_apply]
  cases h1 : I.testBit c <;> cases h2 : I.testBit t <;>
    simp [setBit_eq_self h1, setBit_eq_self h2]

/-! ### Projectors and controlled operators -/

/-- projector on "bit `c` equals `b`" -/
def proj (c : ℕ) (b : Bool) : Op := op1 c (fun x y => if x = b ∧ y = b then 1 else 0)

theorem proj_apply (c : ℕ) (b : Bool) (ψ : St) (I : ℕ) :
    proj c b ψ I = if I.testBit c = b then ψ I else 0 := by
  simp only [proj, op1_apply]
  cases h : I.testBit c <;> cases b <;> simp [setBit_eq_self h]

/-- "apply `U` when qubit `c` is in state `b`, identity otherwise" -/
def ctrlOp (c : ℕ) (b : Bool) (U : Op) : Op := proj c (!b) + proj c b * U

theorem ctrlOp_apply (c : ℕ) (b : Bool) (U : Op) (ψ : St) (I : ℕ) :
    ctrlOp c b U ψ I = if I.testBit c = b then U ψ I else ψ I := by
  simp only [ctrlOp, LinearMap.add_apply, Module.End.mul_apply, Pi.add_apply, proj_apply]
  cases h : I.testBit c <;> cases b <;> simp

/-! ### Pauli operators -/

def mX : M2 := fun a b => if a = b then 0 else 1
def mY : M2 := fun a b => if a = b then 0 else if a then Complex.I else -Complex.I
def mZ : M2 := fun a b => if a = b then (if a then -1 else 1) else 0

/-- Pauli X, Y, Z on qubit `t` -/
def opX (t : ℕ) : Op := op1 t mX
def opY (t : ℕ) : Op := op1 t mY
def opZ (t : ℕ) : Op := op1 t mZ

theorem opX_apply (t : ℕ) (ψ : St) (I : ℕ) : opX t ψ I = ψ (flipBit I t) := by
  simp only [opX, op1_apply, mX, flipBit_eq]
  cases h : I.testBit t <;> simp

theorem opY_apply (t : ℕ) (ψ : St) (I : ℕ) :
    opY t ψ I = (if I.testBit t then Complex.I else -Complex.I) * ψ (flipBit I t) := by
  simp only [opY, op1_apply, mY, flipBit_eq]
  cases h : I.testBit t <;> simp

theorem opZ_apply (t : ℕ) (ψ : St) (I : ℕ) :
    opZ t ψ I = (if I.testBit t then -1 else 1) * ψ I := by
  simp only [opZ, op1_apply, mZ]
  cases h : I.testBit t <;> simp [setBit_eq_self h]

end QF
