import Mathlib.Data.Nat.Bitwise
import Mathlib.Tactic.Ring

/-!
Specification layer: bits of a basis-state index.
A basis state of a register is a natural number `I`; qubit `p` is bit `p` of `I`.
-/

namespace QF

/-- `I` with bit `p` set to `b`. -/
def setBit (I p : ℕ) (b : Bool) : ℕ := if I.testBit p = b then I else I ^^^ 2 ^ p

/-- `I` with bit `p` flipped. -/
def flipBit (I p : ℕ) : ℕ := I ^^^ 2 ^ p

theorem testBit_flipBit (I p q : ℕ) :
    (flipBit I p).testBit q = if q = p then !I.testBit p else I.testBit q := by
  unfold flipBit
  rw [Nat.testBit_xor, Nat.testBit_two_pow]
  by_cases h : q = p
  · subst h; simp
  · simp [h, Ne.symm h]

@[simp] theorem testBit_setBit (I p q : ℕ) (b : Bool) :
    (setBit I p b).testBit q = if q = p then b else I.testBit q := by
  unfold setBit
  split
  · rename_i h
    by_cases hq : q = p
    · subst hq; simp [h]
    · simp [hq]
  · rename_i h
    have := testBit_flipBit I p q
    unfold flipBit at this
    rw [this]
    by_cases hq : q = p
    · subst hq
      simp only [if_true]
      cases hb : I.testBit q <;> cases b <;> simp_all
    · simp [hq]

theorem eq_of_bits {I J : ℕ} (h : ∀ q, I.testBit q = J.testBit q) : I = J :=
  Nat.eq_of_testBit_eq h

@[simp] theorem setBit_setBit (I p : ℕ) (b b' : Bool) :
    setBit (setBit I p b) p b' = setBit I p b' := by
  apply eq_of_bits; intro q; simp only [testBit_setBit]; split <;> simp_all

theorem setBit_comm (I : ℕ) {p q : ℕ} (h : p ≠ q) (b b' : Bool) :
    setBit (setBit I p b) q b' = setBit (setBit I q b') p b := by
  apply eq_of_bits; intro r; simp only [testBit_setBit]
  by_cases h1 : r = p <;> by_cases h2 : r = q <;> simp_all

@[simp] theorem setBit_self (I p : ℕ) : setBit I p (I.testBit p) = I := by
  simp [setBit]

theorem setBit_eq_self {I p : ℕ} {b : Bool} (h : I.testBit p = b) : setBit I p b = I := by
  simp [setBit, h]

theorem flipBit_eq (I p : ℕ) : flipBit I p = setBit I p (!I.testBit p) := by
  apply eq_of_bits; intro q; rw [testBit_flipBit]; simp

@[simp] theorem flipBit_flipBit (I p : ℕ) : flipBit (flipBit I p) p = I := by
  apply eq_of_bits; intro q; simp only [testBit_flipBit]; split <;> simp_all

theorem flipBit_lt {I p n : ℕ} (hp : p < n) : flipBit I p < 2 ^ n ↔ I < 2 ^ n := by
  have key : ∀ J, J < 2 ^ n → flipBit J p < 2 ^ n := by
    intro J hJ
    exact Nat.xor_lt_two_pow hJ (Nat.pow_lt_pow_right (by norm_num) hp)
  constructor
  · intro h; have := key _ h; simpa using this
  · exact key I

theorem setBit_lt {I p n : ℕ} (hp : p < n) (b : Bool) : setBit I p b < 2 ^ n ↔ I < 2 ^ n := by
  unfold setBit; split
  · rfl
  · exact flipBit_lt hp

theorem testBit_eq_div (I p : ℕ) : I.testBit p = decide (I / 2 ^ p % 2 = 1) :=
  Nat.testBit_eq_decide_div_mod_eq

/-- Setting a clear bit adds `2^p`. -/
theorem setBit_true_of_clear {I p : ℕ} (h : I.testBit p = false) :
    setBit I p true = I + 2 ^ p := by
  unfold setBit
  simp only [h, Bool.false_eq_true, if_false]
  apply eq_of_bits
  intro q
  have hdiv : I / 2 ^ p % 2 = 0 := by
    have := testBit_eq_div I p; rw [h] at this
    simp at this; omega
  have e : I = 2 ^ (p+1) * (I / 2 ^ (p+1)) + I % 2 ^ p := by
    have h1 := Nat.div_add_mod I (2 ^ (p+1))
    have h2 : I % 2 ^ (p+1) = I % 2 ^ p := by
      rw [Nat.mod_pow_succ, hdiv]; simp
    omega
  have hlt : I % 2 ^ p < 2 ^ p := Nat.mod_lt _ (Nat.two_pow_pos p)
  have hlt2 : I % 2 ^ p + 2 ^ p < 2 ^ (p+1) := by rw [pow_succ]; omega
  have hlt3 : I % 2 ^ p < 2 ^ (p+1) := by rw [pow_succ]; omega
  rw [Nat.testBit_xor, Nat.testBit_two_pow]
  have eL : I.testBit q = if q < p + 1 then (I % 2 ^ p).testBit q else (I / 2 ^ (p+1)).testBit (q - (p+1)) := by
    conv_lhs => rw [e]
    rw [Nat.testBit_two_pow_mul_add _ hlt3]
  have eR : (I + 2 ^ p).testBit q = if q < p + 1 then (I % 2 ^ p + 2 ^ p).testBit q else (I / 2 ^ (p+1)).testBit (q - (p+1)) := by
    have : I + 2 ^ p = 2 ^ (p+1) * (I / 2 ^ (p+1)) + (I % 2 ^ p + 2 ^ p) := by omega
    conv_lhs => rw [this]
    rw [Nat.testBit_two_pow_mul_add _ hlt2]
  rw [eL, eR]
  by_cases hq : q < p + 1
  · simp only [hq, if_true]
    have : I % 2 ^ p + 2 ^ p = 2 ^ p * 1 + I % 2 ^ p := by omega
    rw [this, Nat.testBit_two_pow_mul_add _ hlt]
    rcases Nat.lt_or_ge q p with h1 | h1
    · simp [h1, Nat.ne_of_gt h1]
    · have : q = p := by omega
      subst this
      simp [Nat.testBit_lt_two_pow hlt]
  · simp only [hq, if_false]
    have : p ≠ q := by omega
    simp [this]

end QF
