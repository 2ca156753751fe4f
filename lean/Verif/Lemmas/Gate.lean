import Verif.Model.Gate
import Verif.Spec.GateDen
import Mathlib.Tactic.LinearCombination
import Mathlib.Tactic.NormNum
import Mathlib.Tactic.FinCases

namespace QF

theorem normalizeAngle_eq (a P : ℝ) : ∃ k : ℤ, normalizeAngle a P = a + k * P := by
  have key : ∃ k : ℤ, fmod a P = a + k * P := by
    unfold fmod
    split_ifs
    · exact ⟨-⌊a / P⌋, by push_cast; ring⟩
    · exact ⟨-⌈a / P⌉, by push_cast; ring⟩
  obtain ⟨k, hk⟩ := key
  unfold normalizeAngle
  simp only [hk]
  split_ifs
  · exact ⟨k + 1, by push_cast; ring⟩
  · exact ⟨k - 1, by push_cast; ring⟩
  · exact ⟨k, rfl⟩

theorem exp_add_int (z w : ℂ) (k : ℤ) (h : z = w + k * (2 * Real.pi * Complex.I)) :
    Complex.exp z = Complex.exp w := by
  rw [h]; exact Complex.exp_periodic.int_mul k w

theorem normalizeAngle_abs_le (a : ℝ) {P : ℝ} (hP : 0 < P) : |normalizeAngle a P| ≤ P / 2 := by
  have key : |fmod a P| ≤ P := by
    unfold fmod
    have e : a = P * (a / P) := by field_simp
    set x := a / P with hx
    have h1 := Int.floor_le x
    have h2 := Int.lt_floor_add_one x
    have h3 := Int.le_ceil x
    have h4 := Int.ceil_lt_add_one x
    rw [abs_le]
    split_ifs
    · constructor
      · have : 0 ≤ P * (x - ⌊x⌋) := mul_nonneg hP.le (by linarith)
        nlinarith
      · have : P * (x - ⌊x⌋) ≤ P * 1 := mul_le_mul_of_nonneg_left (by linarith) hP.le
        nlinarith
    · constructor
      · have : P * (-1) ≤ P * (x - ⌈x⌉) := mul_le_mul_of_nonneg_left (by linarith) hP.le
        nlinarith
      · have : P * (x - ⌈x⌉) ≤ P * 0 := mul_le_mul_of_nonneg_left (by linarith) hP.le
        nlinarith
  have ⟨k1, k2⟩ := abs_le.1 key
  unfold normalizeAngle
  simp only
  rw [abs_le]
  split_ifs <;> constructor <;> linarith

theorem exp_I_normalize (θ : ℝ) :
    Complex.exp (Complex.I * (normalizeAngle θ (2 * Real.pi) : ℝ)) = Complex.exp (Complex.I * θ) := by
  obtain ⟨k, hk⟩ := normalizeAngle_eq θ (2 * Real.pi)
  rw [hk]; exact exp_add_int _ _ k (by push_cast; ring)

theorem cos_half_normalize (θ : ℝ) :
    Real.cos (0.5 * normalizeAngle θ (4 * Real.pi)) = Real.cos (θ / 2) := by
  obtain ⟨k, hk⟩ := normalizeAngle_eq θ (4 * Real.pi)
  rw [hk, show (0.5 : ℝ) * (θ + k * (4 * Real.pi)) = θ / 2 + k * (2 * Real.pi) by ring]
  exact Real.cos_add_int_mul_two_pi _ _

theorem sin_half_normalize (θ : ℝ) :
    Real.sin (0.5 * normalizeAngle θ (4 * Real.pi)) = Real.sin (θ / 2) := by
  obtain ⟨k, hk⟩ := normalizeAngle_eq θ (4 * Real.pi)
  rw [hk, show (0.5 : ℝ) * (θ + k * (4 * Real.pi)) = θ / 2 + k * (2 * Real.pi) by ring]
  exact Real.sin_add_int_mul_two_pi _ _

theorem cos_normalize (θ : ℝ) : Real.cos (normalizeAngle θ (2 * Real.pi)) = Real.cos θ := by
  obtain ⟨k, hk⟩ := normalizeAngle_eq θ (2 * Real.pi)
  rw [hk]; exact Real.cos_add_int_mul_two_pi _ _

theorem sin_normalize (θ : ℝ) : Real.sin (normalizeAngle θ (2 * Real.pi)) = Real.sin θ := by
  obtain ⟨k, hk⟩ := normalizeAngle_eq θ (2 * Real.pi)
  rw [hk]; exact Real.sin_add_int_mul_two_pi _ _

theorem exp_half_normalize (θ : ℝ) :
    Complex.exp (Complex.I * 0.5 * (normalizeAngle θ (4 * Real.pi) : ℝ)) = Complex.exp (Complex.I * (θ / 2)) := by
  obtain ⟨k, hk⟩ := normalizeAngle_eq θ (4 * Real.pi)
  rw [hk]; exact exp_add_int _ _ k (by push_cast; ring)

theorem exp_neg_half_normalize (θ : ℝ) :
    Complex.exp (-Complex.I * 0.5 * (normalizeAngle θ (4 * Real.pi) : ℝ)) = Complex.exp (-(Complex.I * (θ / 2))) := by
  obtain ⟨k, hk⟩ := normalizeAngle_eq θ (4 * Real.pi)
  rw [hk]; exact exp_add_int _ _ (-k) (by push_cast; ring)

theorem exp_I_mul (x : ℝ) : Complex.exp (Complex.I * x) = Real.cos x + Complex.I * Real.sin x := by
  rw [mul_comm, Complex.exp_mul_I]; push_cast; ring

theorem exp_neg_I_mul (x : ℝ) : Complex.exp (-(Complex.I * x)) = Real.cos x - Complex.I * Real.sin x := by
  rw [show -(Complex.I * (x:ℂ)) = (((-x : ℝ)) : ℂ) * Complex.I by push_cast; ring, Complex.exp_mul_I]
  push_cast; simp; ring

/-- 2x2 block matrix given by its four entries -/
def m2 (a b c d : ℂ) : M2 := fun x y =>
  match x, y with
  | false, false => a | false, true => b | true, false => c | true, true => d

@[simp] theorem toM2_mat1 (a b c d : ℂ) : toM2 (mat1 a b c d) = m2 a b c d := by
  funext x y; cases x <;> cases y <;> simp [toM2, mat1, ix1, m2]

theorem op1_m2_apply (t : ℕ) (a b c d : ℂ) (ψ : St) (I : ℕ) :
    op1 t (m2 a b c d) ψ I =
      if I.testBit t then c * ψ (setBit I t false) + d * ψ I
      else a * ψ I + b * ψ (setBit I t true) := by
  rw [op1_apply]
  cases h : I.testBit t <;> simp [m2, setBit_eq_self h]

theorem op2_matC (t c : ℕ) (x y z w : ℂ) :
    op2 t c (toM4 (matC x y z w)) = ctrlOp c true (op1 t (m2 x y z w)) := by
  apply Op.ext'; intro ψ I
  rw [ctrlOp_apply, op1_m2_apply, op2_apply]
  cases hc : I.testBit c <;> cases ht : I.testBit t <;>
    simp [toM4, ix2, matC, setBit_eq_self hc, setBit_eq_self ht]

theorem matOp_mat1 (t : ℕ) (a b c d : ℂ) : matOp t t (mat1 a b c d) = op1 t (m2 a b c d) := by
  simp [matOp]

theorem matOp_matC {t c : ℕ} (h : t ≠ c) (x y z w : ℂ) :
    matOp t c (matC x y z w) = ctrlOp c true (op1 t (m2 x y z w)) := by
  simp [matOp, h, op2_matC]

theorem m2_X : m2 0 1 1 0 = mX := by funext x y; cases x <;> cases y <;> simp [m2, mX]
theorem m2_Y : m2 0 (-Complex.I) Complex.I 0 = mY := by funext x y; cases x <;> cases y <;> simp [m2, mY]
theorem m2_Z : m2 1 0 0 (-1) = mZ := by funext x y; cases x <;> cases y <;> simp [m2, mZ]
theorem m2_one : m2 1 0 0 1 = M2.one := by funext x y; cases x <;> cases y <;> simp [m2, M2.one]

theorem op1_m2_phase (t : ℕ) (θ : ℝ) (z : ℂ) (hz : z = Complex.exp (Complex.I * θ)) :
    op1 t (m2 1 0 0 z) = phaseOp t θ := by
  apply Op.ext'; intro ψ I
  simp only [phaseOp, op1_m2_apply, LinearMap.add_apply, LinearMap.smul_apply, Pi.add_apply,
    Pi.smul_apply, proj_apply, smul_eq_mul, ← hz]
  cases h : I.testBit t <;> simp

theorem smul_one_apply (a : ℂ) (ψ : St) (I : ℕ) : (a • (1 : Op)) ψ I = a * ψ I := rfl

theorem rotX_apply (t : ℕ) (θ : ℝ) : op1 t (m2 (Real.cos (θ/2)) (-(Complex.I * Real.sin (θ/2)))
    (-(Complex.I * Real.sin (θ/2))) (Real.cos (θ/2))) = rotOp (opX t) θ := by
  apply Op.ext'; intro ψ I
  simp only [rotOp, op1_m2_apply, LinearMap.sub_apply, LinearMap.smul_apply, Pi.sub_apply,
    Pi.smul_apply, smul_eq_mul, opX_apply, flipBit_eq, Module.End.one_apply]
  cases h : I.testBit t <;> simp <;> ring

theorem rotY_apply (t : ℕ) (θ : ℝ) : op1 t (m2 (Real.cos (θ/2)) (-(Real.sin (θ/2)))
    (Real.sin (θ/2)) (Real.cos (θ/2))) = rotOp (opY t) θ := by
  apply Op.ext'; intro ψ I
  simp only [rotOp, op1_m2_apply, LinearMap.sub_apply, LinearMap.smul_apply, Pi.sub_apply,
    Pi.smul_apply, smul_eq_mul, opY_apply, flipBit_eq, Module.End.one_apply]
  cases h : I.testBit t
  · simp only [Bool.false_eq_true, if_false, Bool.not_false]
    linear_combination (-((Real.sin (θ/2) : ℝ):ℂ) * ψ (setBit I t true)) * Complex.I_sq
  · simp only [if_true, Bool.not_true]
    linear_combination (((Real.sin (θ/2) : ℝ):ℂ) * ψ (setBit I t false)) * Complex.I_sq

theorem rotZ_apply (t : ℕ) (θ : ℝ) : op1 t (m2 (Complex.exp (-(Complex.I * (θ / 2)))) 0 0
    (Complex.exp (Complex.I * (θ / 2)))) = rotOp (opZ t) θ := by
  apply Op.ext'; intro ψ I
  have h1 := exp_I_mul (θ/2)
  have h2 := exp_neg_I_mul (θ/2)
  push_cast at h1 h2
  simp only [rotOp, op1_m2_apply, LinearMap.sub_apply, LinearMap.smul_apply, Pi.sub_apply,
    Pi.smul_apply, smul_eq_mul, opZ_apply, Module.End.one_apply, h1, h2]
  push_cast
  cases h : I.testBit t <;> simp <;> ring

theorem sqrtX_apply (t : ℕ) : op1 t (m2 (Complex.I * 0.5 + 0.5) (-Complex.I * 0.5 + 0.5)
    (-Complex.I * 0.5 + 0.5) (Complex.I * 0.5 + 0.5)) = sqrtXOp t := by
  apply Op.ext'; intro ψ I
  simp only [sqrtXOp, op1_m2_apply, LinearMap.add_apply, LinearMap.smul_apply, Pi.add_apply,
    Pi.smul_apply, smul_eq_mul, opX_apply, flipBit_eq, Module.End.one_apply]
  cases h : I.testBit t <;> simp <;> ring

theorem exp_pi_div_two : Complex.exp (Complex.I * ((Real.pi / 2 : ℝ))) = Complex.I := by
  rw [exp_I_mul, Real.cos_pi_div_two, Real.sin_pi_div_two]; simp

theorem exp_pi_div_four : Complex.exp (Complex.I * ((Real.pi / 4 : ℝ))) = (1 + Complex.I) / (Real.sqrt 2 : ℂ) := by
  rw [exp_I_mul, Real.cos_pi_div_four, Real.sin_pi_div_four]
  have h : ((Real.sqrt 2 : ℝ) : ℂ) * (Real.sqrt 2 : ℝ) = 2 := by
    rw [← Complex.ofReal_mul, Real.mul_self_sqrt (by norm_num)]; norm_num
  have h0 : ((Real.sqrt 2 : ℝ) : ℂ) ≠ 0 := by
    intro h'; rw [h'] at h; norm_num at h
  push_cast
  field_simp
  linear_combination (1 + Complex.I) * h

end QF
