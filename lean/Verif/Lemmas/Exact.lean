import Verif.Lemmas.ApplyCircuit

namespace QF

/-- entry-wise version of `Resolved` -/
def Res (z : ℂ) : Prop := z ≠ 0 → 1e-16 < ‖z‖

theorem Res.zero : Res 0 := fun h => absurd rfl h
theorem Res.of_re {z : ℂ} (h : 1e-16 < |z.re|) : Res z := fun _ => lt_of_lt_of_le h (Complex.abs_re_le_norm z)
theorem Res.of_im {z : ℂ} (h : 1e-16 < |z.im|) : Res z := fun _ => lt_of_lt_of_le h (Complex.abs_im_le_norm z)
theorem Res.one : Res 1 := .of_re (by norm_num)
theorem Res.negOne : Res (-1) := .of_re (by norm_num)
theorem Res.I : Res Complex.I := .of_im (by norm_num)
theorem Res.negI : Res (-Complex.I) := .of_im (by norm_num)
theorem Res.va : Res (Complex.I * 0.5 + 0.5) := .of_re (by
  rw [show Complex.I * 0.5 + 0.5 = ((1 / 2 : ℝ) : ℂ) + ((1 / 2 : ℝ) : ℂ) * Complex.I by push_cast; ring]
  simp; norm_num)
theorem Res.vb : Res (-Complex.I * 0.5 + 0.5) := .of_re (by
  rw [show -Complex.I * 0.5 + 0.5 = ((1 / 2 : ℝ) : ℂ) + ((-1 / 2 : ℝ) : ℂ) * Complex.I by push_cast; ring]
  simp; norm_num)

theorem inv_sqrt_two_gt : (1e-16 : ℝ) < 1 / Real.sqrt 2 := by
  have h : Real.sqrt 2 ≤ 2 := by
    rw [Real.sqrt_le_left (by norm_num)]; norm_num
  have h0 : 0 < Real.sqrt 2 := by positivity
  rw [lt_div_iff₀ h0]; linarith

theorem Res.h : Res ((1 / Real.sqrt 2 : ℝ) : ℂ) := .of_re (by
  rw [Complex.ofReal_re, abs_of_pos (by positivity)]; exact inv_sqrt_two_gt)
theorem Res.neg {z : ℂ} (h : Res z) : Res (-z) := fun hz => by
  rw [norm_neg]; exact h (by simpa using hz)
theorem Res.t : Res ((1 + Complex.I) / (Real.sqrt 2 : ℂ)) := .of_re (by
  rw [show (1 + Complex.I) / (Real.sqrt 2 : ℂ) = ((1 / Real.sqrt 2 : ℝ) : ℂ) + ((1 / Real.sqrt 2 : ℝ) : ℂ) * Complex.I by
    push_cast; ring]
  rw [Complex.add_re, Complex.ofReal_re, Complex.re_ofReal_mul, Complex.I_re, mul_zero, add_zero,
    abs_of_pos (by positivity)]
  exact inv_sqrt_two_gt)

theorem Resolved.mat1 {a b c d : ℂ} (ha : Res a) (hb : Res b) (hc : Res c) (hd : Res d) :
    Resolved (mat1 a b c d) := by
  have h0 := Res.zero
  intro i j
  show Res _
  fin_cases i <;> fin_cases j <;> simp [QF.mat1] <;> assumption

theorem Resolved.matC {a b c d : ℂ} (ha : Res a) (hb : Res b) (hc : Res c) (hd : Res d) :
    Resolved (matC a b c d) := by
  have h0 := Res.zero
  have h1 := Res.one
  intro i j
  show Res _
  fin_cases i <;> fin_cases j <;> simp [QF.matC] <;> assumption

theorem made_resolved {ty : String} {t c : ℕ} {θ : ℝ} {g : Gate} (h : Made ty t c θ g)
    (hp : g.param = none) : Resolved g.mat := by
  have z0 := Res.zero
  have z1 := Res.one
  cases h <;> first | (cases hp; done) | skip
  · exact .mat1 .zero .one .one .zero
  · exact .mat1 .zero .negI .I .zero
  · exact .mat1 .one .zero .zero .negOne
  · exact .mat1 .h .h .h Res.h.neg
  · exact .mat1 .va .vb .vb .va
  · exact .mat1 .one .zero .zero .I
  · exact .mat1 .one .zero .zero .t
  · exact .mat1 .one .zero .zero .one
  · exact .matC .zero .one .one .zero
  · exact .matC .zero .one .one .zero
  · intro i j; show Res _; fin_cases i <;> fin_cases j <;> simp [matAC] <;> assumption
  · intro i j; show Res _; fin_cases i <;> fin_cases j <;> simp [matAC] <;> assumption
  · exact .matC .zero .negI .I .zero
  · exact .matC .one .zero .zero .negOne
  · exact .matC .va .vb .vb .va
  · intro i j; show Res _; fin_cases i <;> fin_cases j <;> simp [matSWAP] <;> assumption

theorem NoSwapBug.of_left {a b c d : ℂ} (h : 1e-16 < ‖a‖) : NoSwapBug a b c d := fun h1 => by
  have := norm_nonneg d; linarith
theorem NoSwapBug.of_right {a b c d : ℂ} (h : 1e-16 < ‖d‖) : NoSwapBug a b c d := fun h1 => by
  have := norm_nonneg a; linarith
theorem NoSwapBug.of_ne {a b c d : ℂ} (h : b ≠ c) : NoSwapBug a b c d := fun _ h1 => absurd h1 h
theorem NoSwapBug.of_one {a c d : ℂ} : NoSwapBug a 1 c d := fun _ _ => rfl

theorem noSwap_one {b c d : ℂ} : NoSwapBug 1 b c d := .of_left (by norm_num)
theorem noSwap_Y : NoSwapBug 0 (-Complex.I) Complex.I 0 := .of_ne (by
  intro h; have := congrArg Complex.im h; norm_num at this)
theorem noSwap_Rz (p : ℝ) (b c d : ℂ) : NoSwapBug (Complex.exp (-Complex.I * 0.5 * (p : ℂ))) b c d := .of_left (by
  rw [show -Complex.I * 0.5 * (p : ℂ) = ((-0.5 * p : ℝ) : ℂ) * Complex.I by push_cast; ring,
    Complex.norm_exp_ofReal_mul_I]
  norm_num)
theorem noSwap_V (b c d : ℂ) : NoSwapBug (Complex.I * 0.5 + 0.5) b c d := .of_left (Res.va (by
  intro h; have := congrArg Complex.re h
  rw [show Complex.I * 0.5 + 0.5 = ((1 / 2 : ℝ) : ℂ) + ((1 / 2 : ℝ) : ℂ) * Complex.I by push_cast; ring] at this
  simp at this))

theorem noSwap_Ry (x : ℝ) : NoSwapBug (Real.cos x : ℂ) (-((Real.sin x : ℝ) : ℂ)) (Real.sin x : ℂ) (Real.cos x : ℂ) := by
  intro h1 h2
  exfalso
  have hs : Real.sin x = 0 := by
    have := congrArg Complex.re h2
    simp only [Complex.neg_re, Complex.ofReal_re] at this; linarith
  rw [Complex.norm_real, Real.norm_eq_abs] at h1
  have h3 := Real.sin_sq_add_cos_sq x
  rw [hs] at h3
  have h4 : |Real.cos x| ^ 2 = 1 := by rw [sq_abs]; linarith
  nlinarith [abs_nonneg (Real.cos x)]

theorem made_fast {ty : String} {t c : ℕ} {θ : ℝ} {g : Gate} (h : Made ty t c θ g)
    (hty : ty ≠ "Rx") : FastOK g := by
  cases h <;> first | exact absurd rfl hty | skip
  all_goals
    constructor
    · intro he
      first
        | exact absurd he (by assumption)
        | skip
      all_goals
        simp only [mat1, Matrix.of_apply, Matrix.cons_val', Matrix.cons_val_zero, Matrix.cons_val_one]
        first
          | exact .of_one
          | exact noSwap_Y
          | exact noSwap_one
          | exact noSwap_Rz _ _ _ _
          | exact noSwap_V _ _ _
          | exact noSwap_Ry _
          | exact .of_left (Res.h (by
              rw [Ne, Complex.ofReal_eq_zero]; positivity))
    · intro he
      first
        | exact absurd rfl he
        | skip
      all_goals
        first
          | exact .of_one
          | exact noSwap_Y
          | exact noSwap_one
          | exact noSwap_Rz _ _ _ _
          | exact noSwap_V _ _ _
          | exact .of_right (by simp [matA, matSWAP]; norm_num)

/-- `Rx` is fine unless its angle is (to 1e-16) an odd multiple of π -/
theorem rx_fast {ty : String} {t c : ℕ} {θ : ℝ} {g : Gate} (h : Made ty t c θ g) (hty : ty = "Rx")
    (hθ : 1e-16 < |Real.cos (θ / 2)|) : FastOK g := by
  cases h <;> first | (exfalso; revert hty; decide) | skip
  constructor
  · intro _
    apply NoSwapBug.of_left
    show 1e-16 < ‖((Real.cos (0.5 * normalizeAngle θ (4 * Real.pi)) : ℝ) : ℂ)‖
    rw [Complex.norm_real, Real.norm_eq_abs]
    obtain ⟨k, hk⟩ := normalizeAngle_eq θ (4 * Real.pi)
    rw [hk, show 0.5 * (θ + k * (4 * Real.pi)) = θ / 2 + k * (2 * Real.pi) by ring,
      Real.cos_add_int_mul_two_pi]
    exact hθ
  · intro he; exact absurd rfl he

end QF
