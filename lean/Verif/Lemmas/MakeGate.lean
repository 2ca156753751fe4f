import Verif.Lemmas.Made
import Mathlib.LinearAlgebra.Matrix.NonsingularInverse

namespace QF

theorem matA_op {t c : ℕ} (htc : t ≠ c) (p : ℝ) : matOp t c (matA p) = aOp t c p := by
  simp only [matOp, if_neg htc]
  apply Op.ext'; intro ψ I
  rw [op2_apply]
  simp only [aOp, LinearMap.coe_mk, AddHom.coe_mk, swapBits]
  rw [setBit_comm I htc]
  cases hc : I.testBit c <;> cases ht : I.testBit t <;>
    simp [toM4, ix2, matA, setBit_eq_self hc, setBit_eq_self ht]
  ring

theorem aOp_normalize (t c : ℕ) (θ : ℝ) : aOp t c (normalizeAngle θ (2 * Real.pi)) = aOp t c θ := by
  apply Op.ext'; intro ψ I
  simp only [aOp, LinearMap.coe_mk, AddHom.coe_mk, cos_normalize, sin_normalize]

theorem matAC_op {t c : ℕ} (htc : t ≠ c) : matOp t c matAC = ctrlOp c false (opX t) := by
  simp only [matOp, if_neg htc]
  apply Op.ext'; intro ψ I
  rw [ctrlOp_apply, op2_apply, opX_apply, flipBit_eq]
  cases hc : I.testBit c <;> cases ht : I.testBit t <;>
    simp [toM4, ix2, matAC, setBit_eq_self hc, setBit_eq_self ht]

theorem matSWAP_op {t c : ℕ} (htc : t ≠ c) : matOp t c matSWAP = swapOp t c := by
  simp only [matOp, if_neg htc]
  apply Op.ext'; intro ψ I
  rw [op2_apply]
  simp only [swapOp, LinearMap.coe_mk, AddHom.coe_mk, swapBits]
  rw [setBit_comm I htc]
  cases hc : I.testBit c <;> cases ht : I.testBit t <;>
    simp [toM4, ix2, matSWAP, setBit_eq_self hc, setBit_eq_self ht]

/-- what `makeGate` returns, as a denotation -/
theorem made_spec {ty : String} {t c : ℕ} {θ : ℝ} {g : Gate} (h : Made ty t c θ g) :
    g.label = ty ∧ g.target = t ∧ g.control = c ∧ stdGate ty t c θ = some g.op := by
  cases h
  · refine ⟨rfl, rfl, rfl, ?_⟩
    · unfold stdGate; rw [if_pos rfl]; simp only [Gate.op, matOp_mat1]
      rw [m2_X]; rfl
  · refine ⟨rfl, rfl, rfl, ?_⟩
    · unfold stdGate; rw [if_pos rfl]; simp only [Gate.op, matOp_mat1]
      rw [m2_Y]; rfl
  · refine ⟨rfl, rfl, rfl, ?_⟩
    · unfold stdGate; rw [if_pos rfl]; simp only [Gate.op, matOp_mat1]
      rw [m2_Z]; rfl
  · refine ⟨rfl, rfl, rfl, ?_⟩
    · unfold stdGate; rw [if_pos rfl]; simp only [Gate.op, matOp_mat1]
      have e : op1 t (m2 ((1 / Real.sqrt 2 : ℝ) : ℂ) ((1 / Real.sqrt 2 : ℝ) : ℂ) ((1 / Real.sqrt 2 : ℝ) : ℂ) (-((1 / Real.sqrt 2 : ℝ) : ℂ))) = ((1 / Real.sqrt 2 : ℝ) : ℂ) • (opX t + opZ t) := by
        rw [opX, opZ, op1_add, op1_smul]; congr 1; funext x y; cases x <;> cases y <;> simp [mX, mZ, m2]
      rw [e]; rfl
  · refine ⟨rfl, rfl, rfl, ?_⟩
    · unfold stdGate; rw [if_pos rfl]; simp only [Gate.op, matOp_mat1]
      rw [op1_m2_phase t θ _ (exp_I_normalize θ)]; rfl
  · refine ⟨rfl, rfl, rfl, ?_⟩
    · unfold stdGate; rw [if_pos rfl]; simp only [Gate.op, matOp_mat1]
      rw [cos_half_normalize, sin_half_normalize, rotX_apply]; rfl
  · refine ⟨rfl, rfl, rfl, ?_⟩
    · unfold stdGate; rw [if_pos rfl]; simp only [Gate.op, matOp_mat1]
      rw [cos_half_normalize, sin_half_normalize, rotY_apply]; rfl
  · refine ⟨rfl, rfl, rfl, ?_⟩
    · unfold stdGate; rw [if_pos rfl]; simp only [Gate.op, matOp_mat1]
      rw [exp_half_normalize, exp_neg_half_normalize, rotZ_apply]; rfl
  · refine ⟨rfl, rfl, rfl, ?_⟩
    · unfold stdGate; rw [if_pos rfl]; simp only [Gate.op, matOp_mat1]
      rw [sqrtX_apply]; rfl
  · refine ⟨rfl, rfl, rfl, ?_⟩
    · unfold stdGate; rw [if_pos rfl]; simp only [Gate.op, matOp_mat1]
      rw [op1_m2_phase t (Real.pi / 2) _ exp_pi_div_two.symm]; rfl
  · refine ⟨rfl, rfl, rfl, ?_⟩
    · unfold stdGate; rw [if_pos rfl]; simp only [Gate.op, matOp_mat1]
      rw [op1_m2_phase t (Real.pi / 4) _ exp_pi_div_four.symm]; rfl
  · refine ⟨rfl, rfl, rfl, ?_⟩
    · unfold stdGate; rw [if_pos rfl]; simp only [Gate.op, matOp_mat1]
      rw [m2_one, op1_one]; rfl
  · rename_i hh; refine ⟨rfl, rfl, rfl, ?_⟩
    · unfold stdGate; rw [if_neg hh]; simp only [Gate.op]
      rw [matA_op hh, aOp_normalize]; rfl
  · rename_i hh; refine ⟨rfl, rfl, rfl, ?_⟩
    · unfold stdGate; rw [if_neg hh]; simp only [Gate.op, matOp_matC hh]
      rw [m2_X]; rfl
  · rename_i hh; refine ⟨rfl, rfl, rfl, ?_⟩
    · unfold stdGate; rw [if_neg hh]; simp only [Gate.op, matOp_matC hh]
      rw [m2_X]; rfl
  · rename_i hh; refine ⟨rfl, rfl, rfl, ?_⟩
    · unfold stdGate; rw [if_neg hh]; simp only [Gate.op]
      rw [matAC_op hh]; rfl
  · rename_i hh; refine ⟨rfl, rfl, rfl, ?_⟩
    · unfold stdGate; rw [if_neg hh]; simp only [Gate.op]
      rw [matAC_op hh]; rfl
  · rename_i hh; refine ⟨rfl, rfl, rfl, ?_⟩
    · unfold stdGate; rw [if_neg hh]; simp only [Gate.op, matOp_matC hh]
      rw [m2_Y]; rfl
  · rename_i hh; refine ⟨rfl, rfl, rfl, ?_⟩
    · unfold stdGate; rw [if_neg hh]; simp only [Gate.op, matOp_matC hh]
      rw [m2_Z]; rfl
  · rename_i hh; refine ⟨rfl, rfl, rfl, ?_⟩
    · unfold stdGate; rw [if_neg hh]; simp only [Gate.op, matOp_matC hh]
      rw [op1_m2_phase t θ _ (exp_I_normalize θ)]; rfl
  · rename_i hh; refine ⟨rfl, rfl, rfl, ?_⟩
    · unfold stdGate; rw [if_neg hh]; simp only [Gate.op, matOp_matC hh]
      rw [sqrtX_apply]; rfl
  · rename_i hh; refine ⟨rfl, rfl, rfl, ?_⟩
    · unfold stdGate; rw [if_neg hh]; simp only [Gate.op, matOp_matC hh]
      rw [exp_half_normalize, exp_neg_half_normalize, rotZ_apply]; rfl
  · rename_i hh; refine ⟨rfl, rfl, rfl, ?_⟩
    · unfold stdGate; rw [if_neg hh]; simp only [Gate.op]
      rw [matSWAP_op hh]; rfl

theorem makeGate_spec {ty : String} {t c : ℕ} {θ : ℝ} {g : Gate} (h : makeGate ty t c θ = .ok g) :
    g.label = ty ∧ g.target = t ∧ g.control = c ∧ stdGate ty t c θ = some g.op :=
  made_spec (made_of_makeGate h)

/-- names of the one-qubit gates -/
def names1 : List String := ["X", "Y", "Z", "H", "R", "Rx", "Ry", "Rz", "V", "S", "T", "I"]
/-- names of the two-qubit gates -/
def names2 : List String := ["A", "cX", "CNOT", "acX", "aCNOT", "cY", "cZ", "cR", "cV", "cRz", "SWAP"]

theorem made_name {ty : String} {t c : ℕ} {θ : ℝ} {g : Gate} (h : Made ty t c θ g) :
    (t = c ∧ ty ∈ names1) ∨ (t ≠ c ∧ ty ∈ names2) := by
  cases h
  iterate 12 exact Or.inl ⟨rfl, by simp [names1]⟩
  all_goals (rename_i hh; exact Or.inr ⟨hh, by simp [names2]⟩)

theorem makeGate_ok_of_name {ty : String} {t c : ℕ} (θ : ℝ)
    (h : (t = c ∧ ty ∈ names1) ∨ (t ≠ c ∧ ty ∈ names2)) : ∃ g, makeGate ty t c θ = .ok g := by
  rcases h with ⟨rfl, h⟩ | ⟨hne, h⟩
  · simp only [names1, List.mem_cons, List.not_mem_nil, or_false] at h
    rcases h with rfl|rfl|rfl|rfl|rfl|rfl|rfl|rfl|rfl|rfl|rfl|rfl
    · exact ⟨_, makeGate_of_made (.X t θ)⟩
    · exact ⟨_, makeGate_of_made (.Y t θ)⟩
    · exact ⟨_, makeGate_of_made (.Z t θ)⟩
    · exact ⟨_, makeGate_of_made (.H t θ)⟩
    · exact ⟨_, makeGate_of_made (.R t θ)⟩
    · exact ⟨_, makeGate_of_made (.Rx t θ)⟩
    · exact ⟨_, makeGate_of_made (.Ry t θ)⟩
    · exact ⟨_, makeGate_of_made (.Rz t θ)⟩
    · exact ⟨_, makeGate_of_made (.V t θ)⟩
    · exact ⟨_, makeGate_of_made (.S t θ)⟩
    · exact ⟨_, makeGate_of_made (.T t θ)⟩
    · exact ⟨_, makeGate_of_made (.I t θ)⟩
  · simp only [names2, List.mem_cons, List.not_mem_nil, or_false] at h
    rcases h with rfl|rfl|rfl|rfl|rfl|rfl|rfl|rfl|rfl|rfl|rfl
    · exact ⟨_, makeGate_of_made (.A t c θ hne)⟩
    · exact ⟨_, makeGate_of_made (.cX t c θ hne)⟩
    · exact ⟨_, makeGate_of_made (.CNOT t c θ hne)⟩
    · exact ⟨_, makeGate_of_made (.acX t c θ hne)⟩
    · exact ⟨_, makeGate_of_made (.aCNOT t c θ hne)⟩
    · exact ⟨_, makeGate_of_made (.cY t c θ hne)⟩
    · exact ⟨_, makeGate_of_made (.cZ t c θ hne)⟩
    · exact ⟨_, makeGate_of_made (.cR t c θ hne)⟩
    · exact ⟨_, makeGate_of_made (.cV t c θ hne)⟩
    · exact ⟨_, makeGate_of_made (.cRz t c θ hne)⟩
    · exact ⟨_, makeGate_of_made (.SWAP t c θ hne)⟩

theorem makeGate_error {ty : String} {t c : ℕ} {θ : ℝ} {e : Exc} (h : makeGate ty t c θ = .error e) :
    e = .invalidArgument := by
  have aux : ∀ (p : Prop) [Decidable p] (a : Gate) (y : Except Exc Gate),
      (if p then Except.ok a else y) = .error e → y = .error e := by
    intro p _ a y hy
    by_cases hp : p
    · rw [if_pos hp] at hy; cases hy
    · rwa [if_neg hp] at hy
  unfold makeGate at h
  by_cases htc : t = c
  · rw [if_pos htc] at h
    iterate 12 replace h := aux _ _ _ h
    cases h; rfl
  · rw [if_neg htc] at h
    iterate 9 replace h := aux _ _ _ h
    cases h; rfl

/-! ### unitarity -/

/-- columns of [[a,b],[c,d]] are orthonormal -/
structure U2 (a b c d : ℂ) : Prop where
  h00 : (starRingEnd ℂ) a * a + (starRingEnd ℂ) c * c = 1
  h01 : (starRingEnd ℂ) a * b + (starRingEnd ℂ) c * d = 0
  h10 : (starRingEnd ℂ) b * a + (starRingEnd ℂ) d * c = 0
  h11 : (starRingEnd ℂ) b * b + (starRingEnd ℂ) d * d = 1

theorem U2.mat1 {a b c d : ℂ} (h : U2 a b c d) (t : ℕ) : MatUnitary t t (mat1 a b c d) := by
  unfold MatUnitary
  rw [if_pos rfl]
  ext i j
  fin_cases i <;> fin_cases j <;>
    simp [blk2, QF.mat1, Matrix.mul_apply, Fin.sum_univ_two, Matrix.conjTranspose_apply,
      h.h00, h.h01, h.h10, h.h11]

theorem U2.matC {a b c d : ℂ} (h : U2 a b c d) {t s : ℕ} (hts : t ≠ s) : MatUnitary t s (matC a b c d) := by
  unfold MatUnitary
  rw [if_neg hts]
  ext i j
  fin_cases i <;> fin_cases j <;>
    simp [QF.matC, Matrix.mul_apply, Fin.sum_univ_four, Matrix.conjTranspose_apply,
      h.h00, h.h01, h.h10, h.h11]

theorem conj_exp_I (x : ℝ) : (starRingEnd ℂ) (Complex.exp (Complex.I * x)) = Complex.exp (-(Complex.I * x)) := by
  rw [← Complex.exp_conj]; simp

theorem conj_exp_I_mul_self (x : ℝ) :
    (starRingEnd ℂ) (Complex.exp (Complex.I * x)) * Complex.exp (Complex.I * x) = 1 := by
  rw [conj_exp_I, ← Complex.exp_add]; simp

theorem U2.diag {a d : ℂ} (ha : (starRingEnd ℂ) a * a = 1) (hd : (starRingEnd ℂ) d * d = 1) : U2 a 0 0 d :=
  ⟨by simp [ha], by simp, by simp, by simp [hd]⟩

theorem cos_sq_add_sin_sq_C (x : ℝ) : ((Real.cos x : ℝ) : ℂ) * (Real.cos x : ℝ) + ((Real.sin x : ℝ) : ℂ) * (Real.sin x : ℝ) = 1 := by
  rw [← Complex.ofReal_mul, ← Complex.ofReal_mul, ← Complex.ofReal_add]
  have := Real.cos_sq_add_sin_sq x
  rw [show Real.cos x * Real.cos x + Real.sin x * Real.sin x = 1 by nlinarith]; simp

theorem inv_sqrt_two_sq : ((1 / Real.sqrt 2 : ℝ) : ℂ) * ((1 / Real.sqrt 2 : ℝ) : ℂ) = 1 / 2 := by
  rw [← Complex.ofReal_mul]
  have h0 : Real.sqrt 2 ≠ 0 := by positivity
  have : (1 / Real.sqrt 2) * (1 / Real.sqrt 2) = 1 / 2 := by
    rw [div_mul_div_comm, Real.mul_self_sqrt (by norm_num)]; norm_num
  rw [this]; push_cast; ring

theorem U2_X : U2 0 1 1 0 := ⟨by simp, by simp, by simp, by simp⟩
theorem U2_Y : U2 0 (-Complex.I) Complex.I 0 := ⟨by simp, by simp, by simp, by simp⟩
theorem U2_Z : U2 1 0 0 (-1) := U2.diag (by simp) (by simp)
theorem U2_one : U2 1 0 0 1 := U2.diag (by simp) (by simp)
theorem U2_S : U2 1 0 0 Complex.I := U2.diag (by simp) (by simp)
theorem U2_R (p : ℝ) : U2 1 0 0 (Complex.exp (Complex.I * p)) := U2.diag (by simp) (conj_exp_I_mul_self p)
theorem U2_T : U2 1 0 0 ((1 + Complex.I) / (Real.sqrt 2 : ℂ)) := by
  rw [← exp_pi_div_four]; exact U2_R _
theorem U2_H : U2 ((1 / Real.sqrt 2 : ℝ) : ℂ) ((1 / Real.sqrt 2 : ℝ) : ℂ) ((1 / Real.sqrt 2 : ℝ) : ℂ)
    (-((1 / Real.sqrt 2 : ℝ) : ℂ)) := by
  have h := inv_sqrt_two_sq
  constructor <;> simp only [map_neg, Complex.conj_ofReal]
  · linear_combination 2 * h
  · ring
  · ring
  · linear_combination 2 * h
theorem U2_V : U2 (Complex.I * 0.5 + 0.5) (-Complex.I * 0.5 + 0.5) (-Complex.I * 0.5 + 0.5) (Complex.I * 0.5 + 0.5) := by
  have h05 : (starRingEnd ℂ) (0.5 : ℂ) = 0.5 := by
    rw [show (0.5:ℂ) = ((0.5:ℝ):ℂ) by push_cast; rfl, Complex.conj_ofReal]
  constructor <;> simp only [map_add, map_mul, map_neg, Complex.conj_I, h05] <;> ring_nf <;> simp <;> norm_num
theorem U2_Rx (p : ℝ) : U2 ((Real.cos (0.5 * p) : ℝ) : ℂ) (-(Complex.I * (Real.sin (0.5 * p) : ℝ)))
    (-(Complex.I * (Real.sin (0.5 * p) : ℝ))) (Real.cos (0.5 * p) : ℝ) := by
  have h := cos_sq_add_sin_sq_C (0.5 * p)
  have hI := Complex.I_sq
  constructor <;> simp only [map_neg, map_mul, Complex.conj_I, Complex.conj_ofReal]
  · linear_combination h - ((Real.sin (0.5 * p) : ℝ):ℂ)^2 * hI
  · ring
  · ring
  · linear_combination h - ((Real.sin (0.5 * p) : ℝ):ℂ)^2 * hI
theorem U2_Ry (p : ℝ) : U2 ((Real.cos (0.5 * p) : ℝ) : ℂ) (-((Real.sin (0.5 * p) : ℝ) : ℂ))
    ((Real.sin (0.5 * p) : ℝ) : ℂ) (Real.cos (0.5 * p) : ℝ) := by
  have h := cos_sq_add_sin_sq_C (0.5 * p)
  constructor <;> simp only [map_neg, Complex.conj_ofReal]
  · linear_combination h
  · ring
  · ring
  · linear_combination h
theorem U2_Rz (p : ℝ) : U2 (Complex.exp (-Complex.I * 0.5 * p)) 0 0 (Complex.exp (Complex.I * 0.5 * p)) := by
  have e1 : Complex.I * 0.5 * (p:ℂ) = Complex.I * ((0.5 * p : ℝ) : ℂ) := by push_cast; ring
  have e2 : -Complex.I * 0.5 * (p:ℂ) = Complex.I * ((-(0.5 * p) : ℝ) : ℂ) := by push_cast; ring
  rw [e1, e2]
  exact U2.diag (conj_exp_I_mul_self _) (conj_exp_I_mul_self _)

theorem MatUnitary_A {t c : ℕ} (h : t ≠ c) (p : ℝ) :
    MatUnitary t c (matA p) := by
  unfold MatUnitary
  rw [if_neg h]
  have h := cos_sq_add_sin_sq_C p
  ext i j
  fin_cases i <;> fin_cases j <;>
    simp [matA, Matrix.mul_apply, Fin.sum_univ_four, Matrix.conjTranspose_apply, -Complex.ofReal_cos, -Complex.ofReal_sin]
  · exact h
  · ring
  · ring
  · linear_combination h

theorem MatUnitary_AC {t c : ℕ} (h : t ≠ c) : MatUnitary t c matAC := by
  unfold MatUnitary; rw [if_neg h]; ext i j
  fin_cases i <;> fin_cases j <;> simp [matAC, Matrix.mul_apply, Fin.sum_univ_four, Matrix.conjTranspose_apply]

theorem MatUnitary_SWAP {t c : ℕ} (h : t ≠ c) : MatUnitary t c matSWAP := by
  unfold MatUnitary; rw [if_neg h]; ext i j
  fin_cases i <;> fin_cases j <;> simp [matSWAP, Matrix.mul_apply, Fin.sum_univ_four, Matrix.conjTranspose_apply]

theorem made_unitary {ty : String} {t c : ℕ} {θ : ℝ} {g : Gate} (h : Made ty t c θ g) :
    MatUnitary t c g.mat := by
  cases h
  · exact U2_X.mat1 t
  · exact U2_Y.mat1 t
  · exact U2_Z.mat1 t
  · exact U2_H.mat1 t
  · exact (U2_R _).mat1 t
  · exact (U2_Rx _).mat1 t
  · exact (U2_Ry _).mat1 t
  · exact (U2_Rz _).mat1 t
  · exact U2_V.mat1 t
  · exact U2_S.mat1 t
  · exact U2_T.mat1 t
  · exact U2_one.mat1 t
  · rename_i hh; exact MatUnitary_A hh _
  · rename_i hh; exact U2_X.matC hh
  · rename_i hh; exact U2_X.matC hh
  · rename_i hh; exact MatUnitary_AC hh
  · rename_i hh; exact MatUnitary_AC hh
  · rename_i hh; exact U2_Y.matC hh
  · rename_i hh; exact U2_Z.matC hh
  · rename_i hh; exact (U2_R _).matC hh
  · rename_i hh; exact U2_V.matC hh
  · rename_i hh; exact (U2_Rz _).matC hh
  · rename_i hh; exact MatUnitary_SWAP hh

theorem makeGate_unitary {ty : String} {t c : ℕ} {θ : ℝ} {g : Gate} (h : makeGate ty t c θ = .ok g) :
    MatUnitary t c g.mat := made_unitary (made_of_makeGate h)

/-! ### unitary matrices give inverse operators -/

theorem toM2_blk2_mul (m m' : Mat4) (h : blk2 m * blk2 m' = 1) : M2.mul (toM2 m) (toM2 m') = M2.one := by
  funext x y
  have h00 := congrFun (congrFun h 0) 0
  have h01 := congrFun (congrFun h 0) 1
  have h10 := congrFun (congrFun h 1) 0
  have h11 := congrFun (congrFun h 1) 1
  simp [blk2, Matrix.mul_apply, Fin.sum_univ_two] at h00 h01 h10 h11
  cases x <;> cases y <;> simp [M2.mul, toM2, ix1, M2.one, h00, h01, h10, h11]

theorem toM4_mul (m m' : Mat4) : M4.mul (toM4 m) (toM4 m') = toM4 (m * m') := by
  funext a b x y
  simp only [M4.mul, toM4, ix2, Matrix.mul_apply, Fin.sum_univ_four]

theorem toM4_one : toM4 1 = M4.one := by
  funext a b x y
  cases a <;> cases b <;> cases x <;> cases y <;> first | (simp [toM4, M4.one]; done) | (simp only [toM4, M4.one]; rw [Matrix.one_apply_ne (by decide)]; simp)

theorem blk2_conjTranspose (m : Mat4) : blk2 m.conjTranspose = (blk2 m).conjTranspose := by
  ext i j; fin_cases i <;> fin_cases j <;> simp [blk2, Matrix.conjTranspose_apply]

theorem MatUnitary.adj_mul {t c : ℕ} {m : Mat4} (h : MatUnitary t c m) :
    matOp t c m.conjTranspose * matOp t c m = 1 := by
  unfold MatUnitary at h; unfold matOp
  by_cases htc : t = c
  · subst htc
    simp only [if_true] at h ⊢
    rw [op1_mul, toM2_blk2_mul _ _ (by rw [blk2_conjTranspose]; exact h), op1_one]
  · simp only [if_neg htc] at h ⊢
    rw [op2_mul htc, toM4_mul, h, toM4_one, op2_one]

theorem MatUnitary.mul_adj {t c : ℕ} {m : Mat4} (h : MatUnitary t c m) :
    matOp t c m * matOp t c m.conjTranspose = 1 := by
  unfold MatUnitary at h; unfold matOp
  by_cases htc : t = c
  · subst htc
    simp only [if_true] at h ⊢
    rw [op1_mul, toM2_blk2_mul _ _ (by rw [blk2_conjTranspose]; exact mul_eq_one_comm.1 h), op1_one]
  · simp only [if_neg htc] at h ⊢
    rw [op2_mul htc, toM4_mul, mul_eq_one_comm.1 h, toM4_one, op2_one]

theorem MatUnitary.conjTranspose {t c : ℕ} {m : Mat4} (h : MatUnitary t c m) :
    MatUnitary t c m.conjTranspose := by
  unfold MatUnitary at h ⊢
  by_cases htc : t = c
  · simp only [if_pos htc] at h ⊢
    rw [blk2_conjTranspose, Matrix.conjTranspose_conjTranspose]; exact mul_eq_one_comm.1 h
  · simp only [if_neg htc] at h ⊢
    rw [Matrix.conjTranspose_conjTranspose]; exact mul_eq_one_comm.1 h

end QF
