import Verif.Model.Api
import Verif.Lemmas.MakeGate

namespace QF

/-- entrywise: a pair of entries within the tolerance of being Hermitian is exactly Hermitian -/
def TolPair (x y : ℂ) : Prop := ¬ (Complex.normSq ((starRingEnd ℂ) x - y) > 1e-12) → (starRingEnd ℂ) x = y
def TolClean (m : Mat4) : Prop := ∀ i j, TolPair (m i j) (m j i)

theorem TolPair.of_eq {x y : ℂ} (h : (starRingEnd ℂ) x = y) : TolPair x y := fun _ => h
theorem TolPair.of_big {x y : ℂ} (h : 1 ≤ Complex.normSq ((starRingEnd ℂ) x - y)) : TolPair x y := by
  intro h'; exact absurd (lt_of_lt_of_le (by norm_num) h) h'

theorem TolClean.mat1 {a b c d : ℂ} (h1 : TolPair a a) (h2 : TolPair b c) (h3 : TolPair c b) (h4 : TolPair d d) :
    TolClean (mat1 a b c d) := by
  have h0 : TolPair 0 0 := .of_eq (by simp)
  intro i j
  fin_cases i <;> fin_cases j <;> simp [QF.mat1] <;> assumption

theorem TolClean.matC {a b c d : ℂ} (h1 : TolPair a a) (h2 : TolPair b c) (h3 : TolPair c b) (h4 : TolPair d d) :
    TolClean (matC a b c d) := by
  have h0 : TolPair 0 0 := .of_eq (by simp)
  have h01 : TolPair 1 1 := .of_eq (by simp)
  intro i j
  fin_cases i <;> fin_cases j <;> simp [QF.matC] <;> assumption

theorem TolClean.conjTranspose {m : Mat4} (h : TolClean m) : TolClean m.conjTranspose := by
  intro i j hij
  have := h j i
  simp only [Matrix.conjTranspose_apply, RCLike.star_def] at hij ⊢
  have e : Complex.normSq ((starRingEnd ℂ) ((starRingEnd ℂ) (m j i)) - (starRingEnd ℂ) (m i j))
      = Complex.normSq ((starRingEnd ℂ) (m j i) - m i j) := by
    rw [← map_sub, Complex.normSq_conj]
  rw [e] at hij
  rw [this hij]

private theorem h05 : (starRingEnd ℂ) (0.5 : ℂ) = 0.5 := by
  rw [show (0.5:ℂ) = ((0.5:ℝ):ℂ) by push_cast; rfl, Complex.conj_ofReal]

theorem TolPair_Va : TolPair (Complex.I * 0.5 + 0.5) (Complex.I * 0.5 + 0.5) := by
  apply TolPair.of_big
  simp only [map_add, map_mul, Complex.conj_I, h05]
  rw [show -Complex.I * 0.5 + 0.5 - (Complex.I * 0.5 + 0.5) = -Complex.I by ring]; simp

theorem TolPair_Vb : TolPair (-Complex.I * 0.5 + 0.5) (-Complex.I * 0.5 + 0.5) := by
  apply TolPair.of_big
  simp only [map_add, map_mul, map_neg, Complex.conj_I, h05]
  rw [show - -Complex.I * 0.5 + 0.5 - (-Complex.I * 0.5 + 0.5) = Complex.I by ring]; simp

theorem TolPair_S : TolPair Complex.I Complex.I := by
  apply TolPair.of_big
  rw [Complex.conj_I, show -Complex.I - Complex.I = -(2 * Complex.I) by ring, Complex.normSq_neg, Complex.normSq_mul]
  simp; norm_num

theorem TolPair_T : TolPair ((1 + Complex.I) / (Real.sqrt 2 : ℂ)) ((1 + Complex.I) / (Real.sqrt 2 : ℂ)) := by
  apply TolPair.of_big
  simp only [map_div₀, map_add, map_one, Complex.conj_I, Complex.conj_ofReal]
  rw [show (1 + -Complex.I) / (Real.sqrt 2 : ℂ) - (1 + Complex.I) / (Real.sqrt 2 : ℂ) = -(2 * Complex.I) / (Real.sqrt 2 : ℂ) by ring,
    Complex.normSq_div, Complex.normSq_neg, Complex.normSq_mul, Complex.normSq_ofReal, Real.mul_self_sqrt (by norm_num)]
  simp

theorem TolPair_real (x : ℝ) : TolPair (x : ℂ) (x : ℂ) := .of_eq (Complex.conj_ofReal x)
theorem TolPair_0 : TolPair 0 0 := .of_eq (by simp)
theorem TolPair_1 : TolPair 1 1 := .of_eq (by simp)

theorem made_tolClean {ty : String} {t c : ℕ} {θ : ℝ} {g : Gate} (h : Made ty t c θ g)
    (hp : g.param = none) : TolClean g.mat := by
  have hm1 : TolPair (-1) (-1) := .of_eq (by simp)
  have hy1 : TolPair (-Complex.I) Complex.I := .of_eq (by simp)
  have hy2 : TolPair Complex.I (-Complex.I) := .of_eq (by simp)
  cases h <;> first | (cases hp; done) | skip
  · exact .mat1 TolPair_0 TolPair_1 TolPair_1 TolPair_0
  · exact .mat1 TolPair_0 hy1 hy2 TolPair_0
  · exact .mat1 TolPair_1 TolPair_0 TolPair_0 hm1
  · refine .mat1 (TolPair_real _) (TolPair_real _) (TolPair_real _) (.of_eq ?_)
    rw [map_neg, Complex.conj_ofReal]
  · exact .mat1 TolPair_Va TolPair_Vb TolPair_Vb TolPair_Va
  · exact .mat1 TolPair_1 TolPair_0 TolPair_0 TolPair_S
  · exact .mat1 TolPair_1 TolPair_0 TolPair_0 TolPair_T
  · exact .mat1 TolPair_1 TolPair_0 TolPair_0 TolPair_1
  · exact .matC TolPair_0 TolPair_1 TolPair_1 TolPair_0
  · exact .matC TolPair_0 TolPair_1 TolPair_1 TolPair_0
  · intro i j; fin_cases i <;> fin_cases j <;> exact .of_eq (by simp [matAC])
  · intro i j; fin_cases i <;> fin_cases j <;> exact .of_eq (by simp [matAC])
  · exact .matC TolPair_0 hy1 hy2 TolPair_0
  · exact .matC TolPair_1 TolPair_0 TolPair_0 hm1
  · exact .matC TolPair_Va TolPair_Vb TolPair_Vb TolPair_Va
  · intro i j; fin_cases i <;> fin_cases j <;> exact .of_eq (by simp [matSWAP])

theorem adjoint_param_some {g : Gate} {p : ℝ} {m : Bool} (h : g.param = some (p, m)) :
    g.adjoint = ⟨g.label, g.target, g.control, g.mat.conjTranspose,
      some (p * (1 - 2 * (if m then 1 else 0)), m)⟩ := by
  unfold Gate.adjoint; simp [h]

theorem adjoint_param_none {g : Gate} (h : g.param = none) :
    g.adjoint = (open Classical in if g.selfAdjointTol then g
    else if g.type = .T then ⟨"R", g.target, g.control, g.mat.conjTranspose, some (-Real.pi / 4, true)⟩
    else if g.type = .S then ⟨"R", g.target, g.control, g.mat.conjTranspose, some (-Real.pi / 2, true)⟩
    else ⟨adjLabel g.label, g.target, g.control, g.mat.conjTranspose, none⟩) := by
  unfold Gate.adjoint; simp [h]

theorem adjoint_target (g : Gate) : g.adjoint.target = g.target ∧ g.adjoint.control = g.control := by
  rcases hp : g.param with _ | ⟨p, m⟩
  · rw [adjoint_param_none hp]; split_ifs <;> exact ⟨rfl, rfl⟩
  · rw [adjoint_param_some hp]; exact ⟨rfl, rfl⟩

theorem adjoint_mat_of_clean {g : Gate} (h : g.param = none → TolClean g.mat) :
    g.adjoint.mat = g.mat.conjTranspose := by
  rcases hp : g.param with _ | ⟨p, m⟩
  · rw [adjoint_param_none hp]; split_ifs with hs
    · ext i j
      rw [Matrix.conjTranspose_apply]
      exact (h hp j i (hs j i)).symm
    · rfl
    · rfl
    · rfl
  · rw [adjoint_param_some hp]

theorem api_clean {g : Gate} (h : ApiGateAny g) : g.param = none → TolClean g.mat := by
  induction h with
  | make h => exact made_tolClean (made_of_makeGate h)
  | @adj g _ ih =>
    intro hp
    rw [adjoint_mat_of_clean ih]
    apply TolClean.conjTranspose
    apply ih
    rcases hq : g.param with _ | ⟨p, m⟩
    · rfl
    · rw [adjoint_param_some hq] at hp; simp at hp
  | @ctrl u g c _ hu ih =>
    intro hp
    unfold makeControlGate at hu
    split_ifs at hu
    cases hu
    have hu0 : u.param = none := by
      rcases hq : u.param with _ | ⟨p, m⟩
      · rfl
      · simp [Gate.parameter, hq] at hp
    have := ih hu0
    exact TolClean.matC (this 0 0) (this 0 1) (this 1 0) (this 1 1)

theorem api_adjoint_mat {g : Gate} (h : ApiGateAny g) : g.adjoint.mat = g.mat.conjTranspose :=
  adjoint_mat_of_clean (api_clean h)

theorem U2_of_unitary {t : ℕ} {m : Mat4} (h : MatUnitary t t m) : U2 (m 0 0) (m 0 1) (m 1 0) (m 1 1) := by
  unfold MatUnitary at h
  rw [if_pos rfl] at h
  have h00 := congrFun (congrFun h 0) 0
  have h01 := congrFun (congrFun h 0) 1
  have h10 := congrFun (congrFun h 1) 0
  have h11 := congrFun (congrFun h 1) 1
  simp [blk2, Matrix.mul_apply, Fin.sum_univ_two, Matrix.conjTranspose_apply] at h00 h01 h10 h11
  exact ⟨h00, h01, h10, h11⟩

theorem api_unitary {g : Gate} (h : ApiGate g) : MatUnitary g.target g.control g.mat := by
  induction h with
  | make h =>
    have := makeGate_unitary h
    have hs := makeGate_spec h
    rwa [hs.2.1, hs.2.2.1]
  | @adj g hg ih =>
    rw [(adjoint_target g).1, (adjoint_target g).2, api_adjoint_mat hg.any]
    exact ih.conjTranspose
  | @ctrl u g c hu h1 hc ih =>
    unfold makeControlGate at hc
    split_ifs at hc with hne
    cases hc
    rw [← h1] at ih
    exact (U2_of_unitary ih).matC hne

/-- a gate followed by its adjoint, and the adjoint followed by the gate, are the identity -/
theorem api_adjoint_op {g : Gate} (h : ApiGate g) :
    g.adjoint.op * g.op = 1 ∧ g.op * g.adjoint.op = 1 := by
  have hu := api_unitary h
  unfold Gate.op
  rw [(adjoint_target g).1, (adjoint_target g).2, api_adjoint_mat h.any]
  exact ⟨hu.adj_mul, hu.mul_adj⟩

theorem normalizeAngle_of_abs_le {a P : ℝ} (hP : 0 < P) (h : |a| ≤ P / 2) : normalizeAngle a P = a := by
  have ⟨h1, h2⟩ := abs_le.1 h
  have hf : fmod a P = a := by
    unfold fmod
    have hlt : a / P < 1 := by rw [div_lt_one hP]; linarith
    have hgt : -1 < a / P := by rw [lt_div_iff₀ hP]; linarith
    split_ifs with h0
    · have : ⌊a / P⌋ = 0 := Int.floor_eq_iff.2 ⟨by simpa using h0, by simpa using hlt⟩
      rw [this]; simp
    · have : ⌈a / P⌉ = 0 := Int.ceil_eq_iff.2 ⟨by simpa using hgt, by simpa using (not_le.1 h0).le⟩
      rw [this]; simp
  unfold normalizeAngle
  simp only [hf]
  rw [if_neg (by linarith), if_neg (by linarith)]

end QF
