import Verif.Lemmas.Class
import Verif.Model.Circuit

/-! The operator of an API gate as a function of its type and parameter. -/
namespace QF

/-- the 2×2 matrix of a one-qubit gate type -/
noncomputable def typeM : GateType → ℝ → M2
  | .X, _ => m2 0 1 1 0
  | .Y, _ => m2 0 (-Complex.I) Complex.I 0
  | .Z, _ => m2 1 0 0 (-1)
  | .H, _ => m2 ((1 / Real.sqrt 2 : ℝ) : ℂ) ((1 / Real.sqrt 2 : ℝ) : ℂ) ((1 / Real.sqrt 2 : ℝ) : ℂ) (-((1 / Real.sqrt 2 : ℝ) : ℂ))
  | .R, p => m2 1 0 0 (Complex.exp (Complex.I * p))
  | .Rx, p => m2 (Real.cos (p / 2) : ℝ) (-(Complex.I * (Real.sin (p / 2) : ℝ))) (-(Complex.I * (Real.sin (p / 2) : ℝ))) (Real.cos (p / 2) : ℝ)
  | .Ry, p => m2 (Real.cos (p / 2) : ℝ) (-((Real.sin (p / 2) : ℝ) : ℂ)) (Real.sin (p / 2) : ℝ) (Real.cos (p / 2) : ℝ)
  | .Rz, p => m2 (Complex.exp (-(Complex.I * (p / 2)))) 0 0 (Complex.exp (Complex.I * (p / 2)))
  | .V, _ => m2 (Complex.I * 0.5 + 0.5) (-Complex.I * 0.5 + 0.5) (-Complex.I * 0.5 + 0.5) (Complex.I * 0.5 + 0.5)
  | .adjV, _ => m2 (-Complex.I * 0.5 + 0.5) (Complex.I * 0.5 + 0.5) (Complex.I * 0.5 + 0.5) (-Complex.I * 0.5 + 0.5)
  | .S, _ => m2 1 0 0 Complex.I
  | .T, _ => m2 1 0 0 (Complex.exp (Complex.I * (Real.pi / 4 : ℝ)))
  | .I, _ => m2 1 0 0 1
  | _, _ => m2 0 0 0 0

/-- what `simplify` needs to know about a gate: its type, the operator that type and parameter denote, and
that parametrised types carry a parameter -/
inductive Sem (g : Gate) : Prop
  | one (h : g.target = g.control) (his : ∀ x, ctrlTo1 g.type ≠ .ok x)
      (hsw : g.type ≠ .SWAP) (hA : g.type ≠ .A)
      (hop : g.op = op1 g.target (typeM g.type (g.parameter.getD 0)))
      (hp : isParametrized g.type = true → ∃ p, g.parameter = some p)
      (hn : isParametrized g.type = false → g.parameter = none)
  | A (h : g.target ≠ g.control) (ht : g.type = .A) (hop : g.op = aOp g.target g.control (g.parameter.getD 0))
  | SWAP (h : g.target ≠ g.control) (ht : g.type = .SWAP) (hop : g.op = swapOp g.target g.control)
  | ctrl (x : GateType) (h : g.target ≠ g.control) (hx : ctrlTo1 g.type = .ok x)
      (hop : g.op = ctrlOp g.control (decide (g.type ≠ .acX)) (op1 g.target (typeM x (g.parameter.getD 0))))
      (hp : isParametrized g.type = true → ∃ p, g.parameter = some p)
  | cu (h : g.target ≠ g.control) (ht : g.type = .Undefined) (m : M2)
      (hop : g.op = ctrlOp g.control true (op1 g.target m))

theorem typeM_R_norm (θ : ℝ) : typeM .R (normalizeAngle θ (2 * Real.pi)) = typeM .R θ := by
  simp only [typeM]; rw [exp_I_normalize]

theorem typeM_Rx_norm (θ : ℝ) : typeM .Rx (normalizeAngle θ (4 * Real.pi)) = typeM .Rx θ := by
  have h1 := cos_half_normalize θ
  have h2 := sin_half_normalize θ
  simp only [typeM]
  rw [show normalizeAngle θ (4 * Real.pi) / 2 = 0.5 * normalizeAngle θ (4 * Real.pi) by ring, h1, h2]

theorem typeM_Ry_norm (θ : ℝ) : typeM .Ry (normalizeAngle θ (4 * Real.pi)) = typeM .Ry θ := by
  have h1 := cos_half_normalize θ
  have h2 := sin_half_normalize θ
  simp only [typeM]
  rw [show normalizeAngle θ (4 * Real.pi) / 2 = 0.5 * normalizeAngle θ (4 * Real.pi) by ring, h1, h2]

theorem typeM_Rz_norm (θ : ℝ) : typeM .Rz (normalizeAngle θ (4 * Real.pi)) = typeM .Rz θ := by
  have h1 := exp_half_normalize θ
  have h2 := exp_neg_half_normalize θ
  have e1 : ∀ p : ℝ, Complex.I * ((p : ℂ) / 2) = Complex.I * 0.5 * p := by intro p; ring
  have e2 : ∀ p : ℝ, -(Complex.I * ((p : ℂ) / 2)) = -Complex.I * 0.5 * p := by intro p; ring
  simp only [typeM]
  rw [← h1, ← h2, ← e1, ← e2]

/-- the 2×2 block of the literal matrix of `make_gate` is `typeM` -/
theorem lit_Rx (θ : ℝ) : m2 (Real.cos (0.5 * normalizeAngle θ (4 * Real.pi)) : ℝ) (-(Complex.I * (Real.sin (0.5 * normalizeAngle θ (4 * Real.pi)) : ℝ))) (-(Complex.I * (Real.sin (0.5 * normalizeAngle θ (4 * Real.pi)) : ℝ))) (Real.cos (0.5 * normalizeAngle θ (4 * Real.pi)) : ℝ) = typeM .Rx θ := by
  rw [← typeM_Rx_norm]; simp only [typeM]
  rw [show normalizeAngle θ (4 * Real.pi) / 2 = 0.5 * normalizeAngle θ (4 * Real.pi) by ring]

theorem lit_Ry (θ : ℝ) : m2 (Real.cos (0.5 * normalizeAngle θ (4 * Real.pi)) : ℝ) (-((Real.sin (0.5 * normalizeAngle θ (4 * Real.pi)) : ℝ) : ℂ)) (Real.sin (0.5 * normalizeAngle θ (4 * Real.pi)) : ℝ) (Real.cos (0.5 * normalizeAngle θ (4 * Real.pi)) : ℝ) = typeM .Ry θ := by
  rw [← typeM_Ry_norm]; simp only [typeM]
  rw [show normalizeAngle θ (4 * Real.pi) / 2 = 0.5 * normalizeAngle θ (4 * Real.pi) by ring]

theorem lit_Rz (θ : ℝ) : m2 (Complex.exp (-Complex.I * 0.5 * (normalizeAngle θ (4 * Real.pi) : ℝ))) 0 0 (Complex.exp (Complex.I * 0.5 * (normalizeAngle θ (4 * Real.pi) : ℝ))) = typeM .Rz θ := by
  rw [exp_half_normalize, exp_neg_half_normalize]; rfl

theorem lit_R (θ : ℝ) : m2 1 0 0 (Complex.exp (Complex.I * (normalizeAngle θ (2 * Real.pi) : ℝ))) = typeM .R θ := by
  rw [exp_I_normalize]; rfl

theorem lit_T : m2 1 0 0 ((1 + Complex.I) / (Real.sqrt 2 : ℂ)) = typeM .T 0 := by
  simp only [typeM]; rw [exp_pi_div_four]

theorem typeM_const {ty : GateType} (h : isParametrized ty = false) (p q : ℝ) : typeM ty p = typeM ty q := by
  cases ty <;> first | rfl | (exact absurd h (by decide))

/-- one-qubit gates of `make_gate` -/
theorem made_one {ty : String} {t : ℕ} {θ : ℝ} {g : Gate} (h : Made ty t t θ g) :
    g.op = op1 t (typeM g.type θ) ∧ typeM g.type (g.parameter.getD 0) = typeM g.type θ ∧
    (∀ x, ctrlTo1 g.type ≠ .ok x) ∧ g.type ≠ .SWAP ∧ g.type ≠ .A ∧
    (isParametrized g.type = true → ∃ p, g.parameter = some p) ∧
    (isParametrized g.type = false → g.parameter = none) := by
  have k : ∀ (l : String) (ty : GateType) (a b c d : ℂ) (pm : Option (ℝ × Bool)),
      mapLabelToType l = ty → m2 a b c d = typeM ty θ → typeM ty ((pm.map Prod.fst).getD 0) = typeM ty θ →
      (∀ x, ctrlTo1 ty ≠ .ok x) → ty ≠ .SWAP → ty ≠ .A → (isParametrized ty = true → ∃ p, pm.map Prod.fst = some p) →
      (isParametrized ty = false → pm.map Prod.fst = none) →
      (Gate.mk l t t (mat1 a b c d) pm).op = op1 t (typeM (Gate.mk l t t (mat1 a b c d) pm).type θ) ∧
      typeM (Gate.mk l t t (mat1 a b c d) pm).type ((Gate.mk l t t (mat1 a b c d) pm).parameter.getD 0)
        = typeM (Gate.mk l t t (mat1 a b c d) pm).type θ ∧
      (∀ x, ctrlTo1 (Gate.mk l t t (mat1 a b c d) pm).type ≠ .ok x) ∧
      (Gate.mk l t t (mat1 a b c d) pm).type ≠ .SWAP ∧ (Gate.mk l t t (mat1 a b c d) pm).type ≠ .A ∧
      (isParametrized (Gate.mk l t t (mat1 a b c d) pm).type = true →
        ∃ p, (Gate.mk l t t (mat1 a b c d) pm).parameter = some p) ∧
      (isParametrized (Gate.mk l t t (mat1 a b c d) pm).type = false →
        (Gate.mk l t t (mat1 a b c d) pm).parameter = none) := by
    intro l ty a b c d pm h1 h2 h3 h4 h5 h6 h7 h8
    simp only [Gate.type, Gate.parameter, h1, Gate.op, matOp_mat1, h2]
    exact ⟨trivial, h3, h4, h5, h6, h7, h8⟩
  have nx : ∀ ty : GateType, ctrlTo1 ty = .error .outOfRange → ∀ x, ctrlTo1 ty ≠ .ok x := by
    intro ty h x; rw [h]; exact fun h => nomatch h
  cases h <;> first | (exfalso; rename_i hh; exact hh rfl) | skip
  · exact k _ .X _ _ _ _ _ (by decide) rfl rfl (nx _ rfl) (by decide) (by decide) (fun h => absurd h (by decide)) (fun _ => rfl)
  · exact k _ .Y _ _ _ _ _ (by decide) rfl rfl (nx _ rfl) (by decide) (by decide) (fun h => absurd h (by decide)) (fun _ => rfl)
  · exact k _ .Z _ _ _ _ _ (by decide) rfl rfl (nx _ rfl) (by decide) (by decide) (fun h => absurd h (by decide)) (fun _ => rfl)
  · exact k _ .H _ _ _ _ _ (by decide) rfl rfl (nx _ rfl) (by decide) (by decide) (fun h => absurd h (by decide)) (fun _ => rfl)
  · exact k _ .R _ _ _ _ _ (by decide) (lit_R θ) (typeM_R_norm θ) (nx _ rfl) (by decide) (by decide) (fun _ => ⟨_, rfl⟩) (fun h => absurd h (by decide))
  · exact k _ .Rx _ _ _ _ _ (by decide) (lit_Rx θ) (typeM_Rx_norm θ) (nx _ rfl) (by decide) (by decide) (fun _ => ⟨_, rfl⟩) (fun h => absurd h (by decide))
  · exact k _ .Ry _ _ _ _ _ (by decide) (lit_Ry θ) (typeM_Ry_norm θ) (nx _ rfl) (by decide) (by decide) (fun _ => ⟨_, rfl⟩) (fun h => absurd h (by decide))
  · exact k _ .Rz _ _ _ _ _ (by decide) (lit_Rz θ) (typeM_Rz_norm θ) (nx _ rfl) (by decide) (by decide) (fun _ => ⟨_, rfl⟩) (fun h => absurd h (by decide))
  · exact k _ .V _ _ _ _ _ (by decide) rfl rfl (nx _ rfl) (by decide) (by decide) (fun h => absurd h (by decide)) (fun _ => rfl)
  · exact k _ .S _ _ _ _ _ (by decide) rfl rfl (nx _ rfl) (by decide) (by decide) (fun h => absurd h (by decide)) (fun _ => rfl)
  · exact k _ .T _ _ _ _ _ (by decide) lit_T rfl (nx _ rfl) (by decide) (by decide) (fun h => absurd h (by decide)) (fun _ => rfl)
  · exact k _ .I _ _ _ _ _ (by decide) rfl rfl (nx _ rfl) (by decide) (by decide) (fun h => absurd h (by decide)) (fun _ => rfl)

/-- two-qubit gates of `make_gate` -/
theorem made_two {ty : String} {t c : ℕ} {θ : ℝ} {g : Gate} (h : Made ty t c θ g) (htc : t ≠ c) :
    (g.type = .A ∧ g.op = aOp t c θ ∧ g.op = aOp t c (g.parameter.getD 0)) ∨ (g.type = .SWAP ∧ g.op = swapOp t c) ∨
    (∃ x, ctrlTo1 g.type = .ok x ∧
      g.op = ctrlOp c (decide (g.type ≠ .acX)) (op1 t (typeM x θ)) ∧
      typeM x (g.parameter.getD 0) = typeM x θ ∧
      (isParametrized g.type = true → ∃ p, g.parameter = some p)) := by
  have k : ∀ (l : String) (ty x : GateType) (a b z d : ℂ) (pm : Option (ℝ × Bool)),
      mapLabelToType l = ty → ctrlTo1 ty = .ok x → ty ≠ .acX → m2 a b z d = typeM x θ →
      typeM x ((pm.map Prod.fst).getD 0) = typeM x θ →
      (isParametrized ty = true → ∃ p, pm.map Prod.fst = some p) →
      ∃ x, ctrlTo1 (Gate.mk l t c (matC a b z d) pm).type = .ok x ∧
      (Gate.mk l t c (matC a b z d) pm).op =
        ctrlOp c (decide ((Gate.mk l t c (matC a b z d) pm).type ≠ .acX)) (op1 t (typeM x θ)) ∧
      typeM x ((Gate.mk l t c (matC a b z d) pm).parameter.getD 0) = typeM x θ ∧
      (isParametrized (Gate.mk l t c (matC a b z d) pm).type = true →
        ∃ p, (Gate.mk l t c (matC a b z d) pm).parameter = some p) := by
    intro l ty x a b z d pm h1 h2 h3 h4 h5 h6
    refine ⟨x, ?_⟩
    simp only [Gate.type, Gate.parameter, h1, Gate.op, matOp_matC htc, h4, decide_eq_true h3]
    exact ⟨h2, trivial, h5, h6⟩
  have kac : ∀ (l : String), mapLabelToType l = .acX →
      ∃ x, ctrlTo1 (Gate.mk l t c matAC none).type = .ok x ∧
      (Gate.mk l t c matAC none).op =
        ctrlOp c (decide ((Gate.mk l t c matAC none).type ≠ .acX)) (op1 t (typeM x θ)) ∧
      typeM x ((Gate.mk l t c matAC none).parameter.getD 0) = typeM x θ ∧
      (isParametrized (Gate.mk l t c matAC none).type = true →
        ∃ p, (Gate.mk l t c matAC none).parameter = some p) := by
    intro l h1
    refine ⟨.X, ?_⟩
    simp only [Gate.type, Gate.parameter, h1, Gate.op, matAC_op htc]
    refine ⟨rfl, ?_, rfl, fun h => absurd h (by decide)⟩
    have : op1 t (typeM .X θ) = opX t := by unfold opX typeM; rw [m2_X]
    rw [this]; rfl
  cases h <;> first | (exfalso; exact htc rfl) | skip
  · left
    refine ⟨(by decide : mapLabelToType "A" = .A), ?_, ?_⟩
    · simp only [Gate.op]; rw [matA_op htc, aOp_normalize]
    · simp only [Gate.op]; rw [matA_op htc]; rfl
  · exact .inr (.inr (k _ .cX .X _ _ _ _ _ (by decide) rfl (by decide) rfl rfl (fun h => absurd h (by decide))))
  · exact .inr (.inr (k _ .cX .X _ _ _ _ _ (by decide) rfl (by decide) rfl rfl (fun h => absurd h (by decide))))
  · exact .inr (.inr (kac _ (by decide)))
  · exact .inr (.inr (kac _ (by decide)))
  · exact .inr (.inr (k _ .cY .Y _ _ _ _ _ (by decide) rfl (by decide) rfl rfl (fun h => absurd h (by decide))))
  · exact .inr (.inr (k _ .cZ .Z _ _ _ _ _ (by decide) rfl (by decide) rfl rfl (fun h => absurd h (by decide))))
  · exact .inr (.inr (k _ .cR .R _ _ _ _ _ (by decide) rfl (by decide) (lit_R θ) (typeM_R_norm θ) (fun _ => ⟨_, rfl⟩)))
  · exact .inr (.inr (k _ .cV .V _ _ _ _ _ (by decide) rfl (by decide) rfl rfl (fun h => absurd h (by decide))))
  · exact .inr (.inr (k _ .cRz .Rz _ _ _ _ _ (by decide) rfl (by decide) (lit_Rz θ) (typeM_Rz_norm θ) (fun _ => ⟨_, rfl⟩)))
  · right; left
    refine ⟨(by decide : mapLabelToType "SWAP" = .SWAP), ?_⟩
    simp only [Gate.op]; rw [matSWAP_op htc]

theorem named_sem {g : Gate} (h : IsNamed g) : Sem g := by
  obtain ⟨θ, h⟩ := h
  have hm := made_of_makeGate h
  by_cases htc : g.target = g.control
  · rw [← htc] at hm
    obtain ⟨h1, h2, h3, h4, h5, h6, h7⟩ := made_one hm
    exact .one htc h3 h4 h5 (by rw [h2]; exact h1) h6 h7
  · rcases made_two hm htc with ⟨h1, _, h2⟩ | ⟨h1, h2⟩ | ⟨x, h1, h2, h3, h4⟩
    · exact .A htc h1 h2
    · exact .SWAP htc h1 h2
    · exact .ctrl x htc h1 (by rw [h3]; exact h2) h4

theorem adjV_mat : (starRingEnd ℂ) (Complex.I * 0.5 + 0.5) = -Complex.I * 0.5 + 0.5 := by
  have h05 : (starRingEnd ℂ) (0.5 : ℂ) = 0.5 := by
    rw [show (0.5:ℂ) = ((0.5:ℝ):ℂ) by push_cast; rfl, Complex.conj_ofReal]
  simp only [map_add, map_mul, Complex.conj_I, h05]

theorem adjV_mat' : (starRingEnd ℂ) (-Complex.I * 0.5 + 0.5) = Complex.I * 0.5 + 0.5 := by
  rw [← adjV_mat, Complex.conj_conj]

theorem adjV_sem {g : Gate} (h : IsAdjV g) : Sem g := by
  obtain ⟨hl, h, hm, _, ha⟩ := h
  have hmat : g.mat = h.mat.conjTranspose := by rw [← ha]; exact api_adjoint_mat (.make hm)
  rcases hl with ⟨hl, htc⟩ | ⟨hl, htc⟩
  · have hty : g.type = .adjV := by unfold Gate.type; rw [hl]; decide
    refine .one htc ?_ (by rw [hty]; decide) (by rw [hty]; decide) ?_ (fun h => absurd h (by rw [hty]; decide)) ?_
    rotate_left
    rotate_left
    · intro _
      rw [if_pos htc, ← htc] at hm
      have h' := makeGate_of_made (.V g.target 0)
      rw [h'] at hm; cases hm
      rw [← ha, adjoint_param_none rfl]
      have hV : ∀ (t : ℕ) (m : Mat4), Gate.type ⟨"V", t, t, m, none⟩ = .V := fun _ _ => (by decide : mapLabelToType "V" = .V)
      simp only [hV, reduceCtorEq, if_false]
      split_ifs <;> rfl
    · rw [hty]; intro x hx; cases hx
    · rw [if_pos htc, ← htc] at hm
      have h' := makeGate_of_made (.V g.target 0)
      rw [h'] at hm; cases hm
      rw [Gate.op, ← htc, hmat, mat1_conjTranspose, matOp_mat1, adjV_mat, adjV_mat', hty]; rfl
  · have hty : g.type = .adjcV := by unfold Gate.type; rw [hl]; decide
    refine .ctrl .adjV htc (by rw [hty]; rfl) ?_ (fun h => absurd h (by rw [hty]; decide))
    rw [if_neg htc] at hm
    have h' := makeGate_of_made (.cV g.target g.control 0 htc)
    rw [h'] at hm; cases hm
    rw [Gate.op, hmat, matC_conjTranspose, matOp_matC htc, adjV_mat, adjV_mat', hty]; rfl

theorem cu_sem {g : Gate} (h : IsCU g) : Sem g := by
  obtain ⟨hl, hne, a, b, c, d, _, hm⟩ := h
  refine .cu hne ?_ (m2 a b c d) ?_
  · unfold Gate.type; rcases hl with hl | hl <;> rw [hl] <;> decide
  · rw [Gate.op, hm, matOp_matC hne]

theorem api_sem {g : Gate} (h : ApiGate g) : Sem g := by
  rcases api_class h with h | h | h
  · exact named_sem h
  · exact adjV_sem h
  · exact cu_sem h

end QF
