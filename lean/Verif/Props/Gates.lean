import Verif.Lemmas.Adjoint

/-!
Properties C02, C03, C04: gate construction and adjoint.
Specification used: `stdGate` / `MatUnitary` / `matOp` of Spec/GateOp.lean.
-/
namespace QF

/-! ## C02 -/

/-- C02: every gate the API builds (by `gate(...)`, by `adjoint`, by `control_gate` of a one-qubit
gate, in any nesting) has a unitary matrix on the qubits it acts on. -/
theorem C02_unitary {g : Gate} (h : ApiGate g) : MatUnitary g.target g.control g.mat := api_unitary h

/-- C02: `make_gate` accepts exactly the listed names with matching arity and otherwise raises
`invalid_argument`; accepted gates are the standard operators of that name. -/
theorem C02_accepts (ty : String) (t c : ℕ) (θ : ℝ) :
    ((t = c ∧ ty ∈ ["X", "Y", "Z", "H", "R", "Rx", "Ry", "Rz", "V", "S", "T", "I"]) ∨
     (t ≠ c ∧ ty ∈ ["A", "cX", "CNOT", "acX", "aCNOT", "cY", "cZ", "cR", "cV", "cRz", "SWAP"]) →
      ∃ g, makeGate ty t c θ = .ok g ∧ g.label = ty ∧ g.target = t ∧ g.control = c ∧
        stdGate ty t c θ = some (matOp t c g.mat)) ∧
    (¬ ((t = c ∧ ty ∈ ["X", "Y", "Z", "H", "R", "Rx", "Ry", "Rz", "V", "S", "T", "I"]) ∨
     (t ≠ c ∧ ty ∈ ["A", "cX", "CNOT", "acX", "aCNOT", "cY", "cZ", "cR", "cV", "cRz", "SWAP"])) →
      makeGate ty t c θ = .error .invalidArgument) := by
  constructor
  · intro h
    obtain ⟨g, hg⟩ := makeGate_ok_of_name θ h
    obtain ⟨h1, h2, h3, h4⟩ := makeGate_spec hg
    refine ⟨g, hg, h1, h2, h3, ?_⟩
    rw [h4, Gate.op, h2, h3]
  · intro h
    rcases hm : makeGate ty t c θ with e | g
    · rw [makeGate_error hm]
    · exact absurd (made_name (made_of_makeGate hm)) h

/-- C02: the three python overloads of `qforte.gate` only return gates `make_gate` would return, and
reject complex parameters. -/
theorem C02_python_overloads (ty : String) (t c : ℕ) (z : ℂ) (g : Gate) :
    (pyGate1 ty t z = .ok g → z.im = 0 ∧ makeGate ty t t z.re = .ok g) ∧
    (pyGate2 ty t c = .ok g → makeGate ty t c 0 = .ok g) ∧
    (pyGate3 ty t c z = .ok g ↔ z.im = 0 ∧ makeGate ty t c z.re = .ok g) := by
  refine ⟨?_, ?_, ?_⟩
  · intro h; unfold pyGate1 at h; split_ifs at h with h1 h2
    exact ⟨not_not.1 h1, h⟩
  · intro h; unfold pyGate2 at h; split_ifs at h <;> exact h
  · unfold pyGate3
    by_cases h1 : z.im = 0
    · simp [h1]
    · simp [h1]

/-- the premise of `C02_unitary` is met by a nested, non-trivial gate -/
example : ∃ g, ApiGate g ∧ g.label = "cU" ∧ g.target = 0 ∧ g.control = 3 := by
  obtain ⟨u, hu⟩ := makeGate_ok_of_name (ty := "Rx") (t := 0) (c := 0) 0.7 (Or.inl ⟨rfl, by simp [names1]⟩)
  have hs := makeGate_spec hu
  have h0 : u.adjoint.target = 0 := by rw [(adjoint_target u).1, hs.2.1]
  have h1 : u.adjoint.control = 0 := by rw [(adjoint_target u).2, hs.2.2.1]
  rcases hc : makeControlGate 3 u.adjoint with e | g
  · unfold makeControlGate at hc; rw [if_neg (by rw [h0]; decide)] at hc; cases hc
  · have hg := ApiGate.ctrl (ApiGate.adj (ApiGate.make hu)) (by rw [h0, h1]) hc
    refine ⟨g, hg, ?_⟩
    unfold makeControlGate at hc; rw [if_neg (by rw [h0]; decide)] at hc
    cases hc; exact ⟨rfl, h0, rfl⟩

/-- F19: `control_gate` of a two-qubit gate silently uses only the upper-left 2×2 block; for SWAP the
result is not unitary. -/
theorem C02_control_of_two_qubit_gate_not_unitary :
    ∃ g, ApiGateAny g ∧ ¬ MatUnitary g.target g.control g.mat := by
  have hs : makeGate "SWAP" 0 1 0 = .ok _ := makeGate_of_made (.SWAP 0 1 0 (by decide))
  refine ⟨_, .ctrl (c := 2) (.make hs) rfl, ?_⟩
  intro h
  unfold MatUnitary at h
  rw [if_neg (by decide)] at h
  have := congrFun (congrFun h 3) 3
  simp [matC, matSWAP, Matrix.mul_apply, Fin.sum_univ_four, Matrix.conjTranspose_apply] at this

/-! ## C03 -/

/-- the period of the parameter of a gate -/
noncomputable def period (ty : String) : ℝ :=
  if ty = "R" ∨ ty = "cR" ∨ ty = "A" then 2 * Real.pi else 4 * Real.pi

theorem made_param {ty : String} {t c : ℕ} {θ : ℝ} {g : Gate} (h : Made ty t c θ g) {p : ℝ} {m : Bool}
    (hp : g.param = some (p, m)) : p = normalizeAngle θ (period ty) := by
  cases h <;> first | (cases hp; done) | skip
  all_goals
    simp only [Option.some.injEq, Prod.mk.injEq] at hp
    rw [← hp.1]
    first
      | (rw [period, if_pos (by decide)])
      | (rw [period, if_neg (by decide)])

theorem made_congr {ty : String} {t c : ℕ} {θ p : ℝ} {g : Gate} (h : Made ty t c θ g)
    (e : normalizeAngle p (period ty) = normalizeAngle θ (period ty)) (hp : g.param.isSome) :
    Made ty t c p g := by
  cases h <;> first | (cases hp; done) | skip
  all_goals
    first
      | (rw [period, if_pos (by decide)] at e)
      | (rw [period, if_neg (by decide)] at e)
    rw [← e]
  · exact .R _ _
  · exact .Rx _ _
  · exact .Ry _ _
  · exact .Rz _ _
  · exact .A _ _ _ ‹_›
  · exact .cR _ _ _ ‹_›
  · exact .cRz _ _ _ ‹_›

theorem period_pos (ty : String) : 0 < period ty := by
  unfold period; have := Real.pi_pos; split_ifs <;> linarith

/-- C03: the stored parameter `p` differs from the requested angle by a whole number of periods, lies
within half a period of zero, re-creating the gate from the stored parameter gives the same gate, and the
matrix is that of the *requested* angle. -/
theorem C03_normalisation {ty : String} {t c : ℕ} {θ : ℝ} {g : Gate} {p : ℝ} {m : Bool}
    (h : makeGate ty t c θ = .ok g) (hp : g.param = some (p, m)) :
    |p| ≤ period ty / 2 ∧ (∃ k : ℤ, p = θ + k * period ty) ∧ makeGate ty t c p = .ok g ∧
      stdGate ty t c θ = some (matOp t c g.mat) := by
  have hm := made_of_makeGate h
  have e := made_param hm hp
  obtain ⟨h1, h2, h3, h4⟩ := makeGate_spec h
  have hle : |p| ≤ period ty / 2 := by rw [e]; exact normalizeAngle_abs_le _ (period_pos ty)
  refine ⟨hle, ?_, ?_, ?_⟩
  · rw [e]; exact normalizeAngle_eq θ _
  · have hn : normalizeAngle p (period ty) = p := normalizeAngle_of_abs_le (period_pos ty) hle
    exact makeGate_of_made (made_congr hm (by rw [hn, e]) (by rw [hp]; rfl))
  · rw [h4, Gate.op, h2, h3]

example : ∃ g p, makeGate "Rz" 4 4 100 = .ok g ∧ g.param = some (p, true) := ⟨_, _, makeGate_of_made (.Rz 4 100), rfl⟩

/-! ## C04 -/

/-- C04: the adjoint of any API gate has the conjugate-transposed matrix on the same qubits. -/
theorem C04_matrix {g : Gate} (h : ApiGateAny g) :
    g.adjoint.mat = g.mat.conjTranspose ∧ g.adjoint.target = g.target ∧ g.adjoint.control = g.control :=
  ⟨api_adjoint_mat h, adjoint_target g⟩

/-- C04: gate then adjoint, and adjoint then gate, are the identity on every state; taking the adjoint
twice gives back the same matrix. -/
theorem C04_inverse {g : Gate} (h : ApiGate g) (ψ : St) :
    matOp g.adjoint.target g.adjoint.control g.adjoint.mat (matOp g.target g.control g.mat ψ) = ψ ∧
    matOp g.target g.control g.mat (matOp g.adjoint.target g.adjoint.control g.adjoint.mat ψ) = ψ ∧
    g.adjoint.adjoint.mat = g.mat := by
  obtain ⟨h1, h2⟩ := api_adjoint_op h
  refine ⟨congrFun (congrArg DFunLike.coe h1) ψ, congrFun (congrArg DFunLike.coe h2) ψ, ?_⟩
  rw [api_adjoint_mat h.adj.any, api_adjoint_mat h.any, Matrix.conjTranspose_conjTranspose]

theorem selfAdjoint_of_conj {g : Gate} (hp : g.param = none) (h : g.mat.conjTranspose = g.mat) :
    g.adjoint = g := by
  rw [adjoint_param_none hp, if_pos]
  intro i j
  have : (starRingEnd ℂ) (g.mat i j) = g.mat j i := by
    conv_rhs => rw [← h]
    rfl
  rw [this, sub_self]; simp; norm_num

theorem not_selfAdjoint_of {g : Gate} (i j : Fin 4)
    (h : 1 ≤ Complex.normSq ((starRingEnd ℂ) (g.mat i j) - g.mat j i)) : ¬ g.selfAdjointTol := by
  intro h'; exact h' i j (lt_of_lt_of_le (by norm_num) h)

theorem mat1_conjTranspose (a b c d : ℂ) : (mat1 a b c d).conjTranspose =
    mat1 ((starRingEnd ℂ) a) ((starRingEnd ℂ) c) ((starRingEnd ℂ) b) ((starRingEnd ℂ) d) := by
  ext i j; fin_cases i <;> fin_cases j <;> simp [mat1, Matrix.conjTranspose_apply]

theorem matC_conjTranspose (a b c d : ℂ) : (matC a b c d).conjTranspose =
    matC ((starRingEnd ℂ) a) ((starRingEnd ℂ) c) ((starRingEnd ℂ) b) ((starRingEnd ℂ) d) := by
  ext i j; fin_cases i <;> fin_cases j <;> simp [matC, Matrix.conjTranspose_apply]

theorem normalize_neg (θ : ℝ) {P : ℝ} (hP : 0 < P) :
    normalizeAngle (-normalizeAngle θ P) P = -normalizeAngle θ P :=
  normalizeAngle_of_abs_le hP (by rw [abs_neg]; exact normalizeAngle_abs_le _ hP)

private theorem conj_exp_Rz1 (p : ℝ) : (starRingEnd ℂ) (Complex.exp (-Complex.I * 0.5 * p)) =
    Complex.exp (-Complex.I * 0.5 * ((-p : ℝ))) := by
  rw [← Complex.exp_conj]
  congr 1
  have h05 : (starRingEnd ℂ) (0.5 : ℂ) = 0.5 := by
    rw [show (0.5:ℂ) = ((0.5:ℝ):ℂ) by push_cast; rfl, Complex.conj_ofReal]
  simp [h05]

private theorem conj_exp_Rz2 (p : ℝ) : (starRingEnd ℂ) (Complex.exp (Complex.I * 0.5 * p)) =
    Complex.exp (Complex.I * 0.5 * ((-p : ℝ))) := by
  rw [← Complex.exp_conj]
  congr 1
  have h05 : (starRingEnd ℂ) (0.5 : ℂ) = 0.5 := by
    rw [show (0.5:ℂ) = ((0.5:ℝ):ℂ) by push_cast; rfl, Complex.conj_ofReal]
  simp [h05]

private theorem conj_exp_R (p : ℝ) : (starRingEnd ℂ) (Complex.exp (Complex.I * p)) =
    Complex.exp (Complex.I * ((-p : ℝ))) := by
  rw [conj_exp_I]; congr 1; push_cast; ring

/-- C04: for every gate built by `make_gate`, the label, qubits and parameter of the adjoint describe
the adjoint's own matrix: `make_gate` rebuilds exactly the adjoint from them, unless the adjoint is one
of the two gates `adj(V)`, `adj(cV)` that have no constructor. -/
theorem C04_rebuild {ty : String} {t c : ℕ} {θ : ℝ} {g : Gate} (h : makeGate ty t c θ = .ok g) :
    (ty ≠ "V" ∧ ty ≠ "cV" →
      makeGate g.adjoint.label t c (g.adjoint.parameter.getD 0) = .ok g.adjoint) ∧
    (ty = "V" → g.adjoint.label = "adj(V)" ∧ g.adjoint.adjoint = g) ∧
    (ty = "cV" → g.adjoint.label = "adj(cV)" ∧ g.adjoint.adjoint = g) := by
  have hP2 : (0 : ℝ) < 2 * Real.pi := by have := Real.pi_pos; linarith
  have hP4 : (0 : ℝ) < 4 * Real.pi := by have := Real.pi_pos; linarith
  have hm := made_of_makeGate h
  -- self-adjoint parameterless gates
  have key0 : g.param = none → g.mat.conjTranspose = g.mat → ty ≠ "V" → ty ≠ "cV" →
      (∀ θ', makeGate ty t c θ' = .ok g) →
      ((ty ≠ "V" ∧ ty ≠ "cV" →
      makeGate g.adjoint.label t c (g.adjoint.parameter.getD 0) = .ok g.adjoint) ∧
    (ty = "V" → g.adjoint.label = "adj(V)" ∧ g.adjoint.adjoint = g) ∧
    (ty = "cV" → g.adjoint.label = "adj(cV)" ∧ g.adjoint.adjoint = g)) := by
    intro hp hc h1 h2 hall
    rw [selfAdjoint_of_conj hp hc]
    refine ⟨fun _ => ?_, fun h => absurd h h1, fun h => absurd h h2⟩
    rw [(makeGate_spec h).1]; exact hall _
  -- gates with a parameter
  have key1 : ∀ p m, g.param = some (p, m) → ty ≠ "V" → ty ≠ "cV" →
      makeGate ty t c (p * (1 - 2 * (if m then 1 else 0))) =
        .ok ⟨g.label, t, c, g.mat.conjTranspose, some (p * (1 - 2 * (if m then 1 else 0)), m)⟩ →
      ((ty ≠ "V" ∧ ty ≠ "cV" →
      makeGate g.adjoint.label t c (g.adjoint.parameter.getD 0) = .ok g.adjoint) ∧
    (ty = "V" → g.adjoint.label = "adj(V)" ∧ g.adjoint.adjoint = g) ∧
    (ty = "cV" → g.adjoint.label = "adj(cV)" ∧ g.adjoint.adjoint = g)) := by
    intro p m hp h1 h2 hmk
    rw [adjoint_param_some hp]
    refine ⟨fun _ => ?_, fun h => absurd h h1, fun h => absurd h h2⟩
    obtain ⟨h3, h4, h5, _⟩ := makeGate_spec h
    simp only [Gate.parameter, Option.map_some, Option.getD_some, h3, h4, h5] at hmk ⊢
    exact hmk
  -- V and cV
  have keyV : g.param = none → ¬ g.selfAdjointTol → ¬ g.adjoint.selfAdjointTol →
      (ty = "V" ∨ ty = "cV") →
      ((ty ≠ "V" ∧ ty ≠ "cV" →
      makeGate g.adjoint.label t c (g.adjoint.parameter.getD 0) = .ok g.adjoint) ∧
    (ty = "V" → g.adjoint.label = "adj(V)" ∧ g.adjoint.adjoint = g) ∧
    (ty = "cV" → g.adjoint.label = "adj(cV)" ∧ g.adjoint.adjoint = g)) := by
    intro hp hns hns2 hV
    have hl := (makeGate_spec h).1
    have e : g.adjoint = ⟨adjLabel g.label, g.target, g.control, g.mat.conjTranspose, none⟩ := by
      rw [adjoint_param_none hp, if_neg hns]
      rcases hV with rfl | rfl
      · rw [if_neg (by rw [Gate.type, hl]; decide), if_neg (by rw [Gate.type, hl]; decide)]
      · rw [if_neg (by rw [Gate.type, hl]; decide), if_neg (by rw [Gate.type, hl]; decide)]
    have e2 : g.adjoint.adjoint = ⟨adjLabel (adjLabel g.label), g.target, g.control, g.mat, none⟩ := by
      have hp2 : g.adjoint.param = none := by rw [e]
      have hl2 : g.adjoint.label = adjLabel ty := by rw [e, hl]
      rw [adjoint_param_none hp2, if_neg hns2]
      have h3 : g.adjoint.type ≠ .T ∧ g.adjoint.type ≠ .S := by
        rw [Gate.type, hl2]
        rcases hV with rfl | rfl <;> decide
      rw [if_neg h3.1, if_neg h3.2, e]
      simp
    refine ⟨fun hh => ?_, fun hh => ?_, fun hh => ?_⟩
    · rcases hV with h' | h'
      · exact absurd h' hh.1
      · exact absurd h' hh.2
    · subst hh
      refine ⟨by rw [e, hl]; exact (by decide : adjLabel "V" = "adj(V)"), ?_⟩
      rw [e2, hl, show adjLabel (adjLabel "V") = "V" by decide, ← hl, ← hp]
    · subst hh
      refine ⟨by rw [e, hl]; exact (by decide : adjLabel "cV" = "adj(cV)"), ?_⟩
      rw [e2, hl, show adjLabel (adjLabel "cV") = "cV" by decide, ← hl, ← hp]
  have hneg : ∀ p : ℝ, p * (1 - 2 * (if true = true then 1 else 0)) = -p := by intro p; simp; ring
  have hpos : ∀ p : ℝ, p * (1 - 2 * (if false = true then 1 else 0)) = p := by intro p; simp
  have hV1 : (1:ℝ) ≤ Complex.normSq ((starRingEnd ℂ) (Complex.I * 0.5 + 0.5) - (Complex.I * 0.5 + 0.5)) := by
    have h05 : (starRingEnd ℂ) (0.5 : ℂ) = 0.5 := by
      rw [show (0.5:ℂ) = ((0.5:ℝ):ℂ) by push_cast; rfl, Complex.conj_ofReal]
    simp only [map_add, map_mul, Complex.conj_I, h05]
    rw [show -Complex.I * 0.5 + 0.5 - (Complex.I * 0.5 + 0.5) = -Complex.I by ring]; simp
  have hV2 : (1:ℝ) ≤ Complex.normSq ((starRingEnd ℂ) ((starRingEnd ℂ) (Complex.I * 0.5 + 0.5)) - (starRingEnd ℂ) (Complex.I * 0.5 + 0.5)) := by
    rw [← map_sub, Complex.normSq_conj]; exact hV1
  cases hm
  · exact key0 rfl (by rw [mat1_conjTranspose]; simp) (by decide) (by decide) (fun θ' => makeGate_of_made (.X t θ'))
  · exact key0 rfl (by rw [mat1_conjTranspose]; simp) (by decide) (by decide) (fun θ' => makeGate_of_made (.Y t θ'))
  · exact key0 rfl (by rw [mat1_conjTranspose]; simp) (by decide) (by decide) (fun θ' => makeGate_of_made (.Z t θ'))
  · exact key0 rfl (by rw [mat1_conjTranspose, map_neg, Complex.conj_ofReal]) (by decide) (by decide) (fun θ' => makeGate_of_made (.H t θ'))
  · refine key1 _ _ rfl (by decide) (by decide) ?_
    rw [hneg]; refine (makeGate_of_made (.R t _)).trans ?_
    rw [normalize_neg θ hP2, mat1_conjTranspose, conj_exp_R]; simp
  · refine key1 _ _ rfl (by decide) (by decide) ?_
    rw [hneg]; refine (makeGate_of_made (.Rx t _)).trans ?_
    rw [normalize_neg θ hP4, mat1_conjTranspose, mul_neg, Real.cos_neg, Real.sin_neg]
    simp only [map_neg, map_mul, Complex.conj_I, Complex.conj_ofReal, Complex.ofReal_neg]
    simp
  · refine key1 _ _ rfl (by decide) (by decide) ?_
    rw [hneg]; refine (makeGate_of_made (.Ry t _)).trans ?_
    rw [normalize_neg θ hP4, mat1_conjTranspose, mul_neg, Real.cos_neg, Real.sin_neg]
    simp only [map_neg, Complex.conj_ofReal, Complex.ofReal_neg, neg_neg]
  · refine key1 _ _ rfl (by decide) (by decide) ?_
    rw [hneg]; refine (makeGate_of_made (.Rz t _)).trans ?_
    rw [normalize_neg θ hP4, mat1_conjTranspose, conj_exp_Rz1, conj_exp_Rz2]; simp
  · refine keyV rfl ?_ ?_ (Or.inl rfl)
    · exact not_selfAdjoint_of 0 0 (by simpa [mat1] using hV1)
    · apply not_selfAdjoint_of 0 0
      rw [api_adjoint_mat (.make h), mat1_conjTranspose]
      exact hV2
  · have hns : ¬ Gate.selfAdjointTol ⟨"S", t, t, mat1 1 0 0 Complex.I, none⟩ := by
      apply not_selfAdjoint_of 1 1
      simp only [mat1, Matrix.of_apply, Matrix.cons_val]
      rw [Complex.conj_I, show -Complex.I - Complex.I = -(2 * Complex.I) by ring, Complex.normSq_neg, Complex.normSq_mul]
      simp; norm_num
    refine ⟨fun _ => ?_, fun h => absurd h (by decide), fun h => absurd h (by decide)⟩
    rw [adjoint_param_none rfl, if_neg hns, show Gate.type ⟨"S", t, t, mat1 1 0 0 Complex.I, none⟩ = .S from (by decide : mapLabelToType "S" = .S), if_neg (by decide), if_pos rfl]
    simp only [Gate.parameter, Option.map_some, Option.getD_some]
    refine (makeGate_of_made (.R t _)).trans ?_
    have hn : normalizeAngle (-Real.pi / 2) (2 * Real.pi) = -Real.pi / 2 := by
      apply normalizeAngle_of_abs_le hP2
      rw [neg_div, abs_neg, abs_of_pos (by have := Real.pi_pos; linarith)]; have := Real.pi_pos; linarith
    have hI : (starRingEnd ℂ) Complex.I = Complex.exp (Complex.I * ((-Real.pi / 2 : ℝ))) := by
      rw [show -Real.pi / 2 = -(Real.pi / 2) by ring, ← conj_exp_R, exp_pi_div_two]
    rw [hn, mat1_conjTranspose, hI]; simp
  · have hns : ¬ Gate.selfAdjointTol ⟨"T", t, t, mat1 1 0 0 ((1 + Complex.I) / (Real.sqrt 2 : ℂ)), none⟩ := by
      apply not_selfAdjoint_of 1 1
      simp only [mat1, Matrix.of_apply, Matrix.cons_val]
      simp only [map_div₀, map_add, map_one, Complex.conj_I, Complex.conj_ofReal]
      rw [show (1 + -Complex.I) / (Real.sqrt 2 : ℂ) - (1 + Complex.I) / (Real.sqrt 2 : ℂ) = -(2 * Complex.I) / (Real.sqrt 2 : ℂ) by ring,
        Complex.normSq_div, Complex.normSq_neg, Complex.normSq_mul, Complex.normSq_ofReal, Real.mul_self_sqrt (by norm_num)]
      simp
    refine ⟨fun _ => ?_, fun h => absurd h (by decide), fun h => absurd h (by decide)⟩
    rw [adjoint_param_none rfl, if_neg hns, show Gate.type ⟨"T", t, t, mat1 1 0 0 ((1 + Complex.I) / (Real.sqrt 2 : ℂ)), none⟩ = .T from (by decide : mapLabelToType "T" = .T), if_pos rfl]
    simp only [Gate.parameter, Option.map_some, Option.getD_some]
    refine (makeGate_of_made (.R t _)).trans ?_
    have hn : normalizeAngle (-Real.pi / 4) (2 * Real.pi) = -Real.pi / 4 := by
      apply normalizeAngle_of_abs_le hP2
      rw [neg_div, abs_neg, abs_of_pos (by have := Real.pi_pos; linarith)]; have := Real.pi_pos; linarith
    rw [hn, mat1_conjTranspose, ← exp_pi_div_four, conj_exp_R, show -(Real.pi/4) = -Real.pi/4 by ring]; simp
  · exact key0 rfl (by rw [mat1_conjTranspose]; simp) (by decide) (by decide) (fun θ' => makeGate_of_made (.I t θ'))
  · rename_i hh
    refine key1 _ _ rfl (by decide) (by decide) ?_
    rw [hpos]; refine (makeGate_of_made (.A t c _ hh)).trans ?_
    rw [normalizeAngle_of_abs_le hP2 (normalizeAngle_abs_le _ hP2)]
    have e : (matA (normalizeAngle θ (2 * Real.pi))).conjTranspose = matA (normalizeAngle θ (2 * Real.pi)) := by
      ext i j; fin_cases i <;> fin_cases j <;>
        simp [matA, Matrix.conjTranspose_apply, -Complex.ofReal_cos, -Complex.ofReal_sin]
    rw [e]
  · rename_i hh
    exact key0 rfl (by rw [matC_conjTranspose]; simp) (by decide) (by decide) (fun θ' => makeGate_of_made (.cX t c θ' hh))
  · rename_i hh
    exact key0 rfl (by rw [matC_conjTranspose]; simp) (by decide) (by decide) (fun θ' => makeGate_of_made (.CNOT t c θ' hh))
  · rename_i hh
    refine key0 rfl ?_ (by decide) (by decide) (fun θ' => makeGate_of_made (.acX t c θ' hh))
    ext i j; fin_cases i <;> fin_cases j <;> simp [matAC, Matrix.conjTranspose_apply]
  · rename_i hh
    refine key0 rfl ?_ (by decide) (by decide) (fun θ' => makeGate_of_made (.aCNOT t c θ' hh))
    ext i j; fin_cases i <;> fin_cases j <;> simp [matAC, Matrix.conjTranspose_apply]
  · rename_i hh
    exact key0 rfl (by rw [matC_conjTranspose]; simp) (by decide) (by decide) (fun θ' => makeGate_of_made (.cY t c θ' hh))
  · rename_i hh
    exact key0 rfl (by rw [matC_conjTranspose]; simp) (by decide) (by decide) (fun θ' => makeGate_of_made (.cZ t c θ' hh))
  · rename_i hh
    refine key1 _ _ rfl (by decide) (by decide) ?_
    rw [hneg]; refine (makeGate_of_made (.cR t c _ hh)).trans ?_
    rw [normalize_neg θ hP2, matC_conjTranspose, conj_exp_R]; simp
  · rename_i hh
    refine keyV rfl ?_ ?_ (Or.inr rfl)
    · exact not_selfAdjoint_of 2 2 (by simpa [matC] using hV1)
    · apply not_selfAdjoint_of 2 2
      rw [api_adjoint_mat (.make h), matC_conjTranspose]
      exact hV2
  · rename_i hh
    refine key1 _ _ rfl (by decide) (by decide) ?_
    rw [hneg]; refine (makeGate_of_made (.cRz t c _ hh)).trans ?_
    rw [normalize_neg θ hP4, matC_conjTranspose, conj_exp_Rz1, conj_exp_Rz2]; simp
  · rename_i hh
    refine key0 rfl ?_ (by decide) (by decide) (fun θ' => makeGate_of_made (.SWAP t c θ' hh))
    ext i j; fin_cases i <;> fin_cases j <;> simp [matSWAP, Matrix.conjTranspose_apply]

example : ∃ g, makeGate "T" 2 2 0 = .ok g ∧ ApiGate g ∧ g.param = none :=
  ⟨_, makeGate_of_made (.T 2 0), .make (makeGate_of_made (.T 2 0)), rfl⟩

end QF
