import Verif.Lemmas.Expo

/-!
C38, C39, C40: exponentials of Pauli strings and Trotter products.
`IsExp A U` (Spec/Exp) says that `U` is the sum of the power series of `exp A`.
-/
namespace QF

theorem circuit_comm_op1 {c : Circuit} {s : ℕ} (m : M2) (h : ∀ g ∈ c, s ≠ g.target ∧ s ≠ g.control) :
    Commute (op1 s m) c.op := by
  induction c with
  | nil => exact Commute.one_right _
  | cons g c ih =>
    rw [Circuit.op_cons]
    exact (ih fun x hx => h x (by simp [hx])).mul_right (matOp_comm_op1 m _ (h g (by simp)).1 (h g (by simp)).2)

theorem pauliString_sq {c : Circuit} (h : c.IPauliString) : Circuit.op c * Circuit.op c = 1 := by
  obtain ⟨hp, hn⟩ := noI_pauli h
  rw [← noI_op h]
  have h1 : Circuit.op (Circuit.noI c) = Circuit.opLR (Circuit.noI c) := by
    rw [Circuit.op_eq_reverse]; exact opLR_reverse_distinct hp (by
      rw [List.nodup_iff_pairwise_ne, List.pairwise_map] at hn; exact hn)
  have h2 := opLR_mul_reverse hp
  rw [← Circuit.op_eq_reverse, ← h1] at h2
  exact h2

theorem rot_conj {M M' P Z : Op} (h1 : M' * M = 1) (h2 : Z * M = M * P) (θ : ℝ) : M' * (rotOp Z θ * M) = rotOp P θ := by
  unfold rotOp
  rw [sub_mul, mul_sub, smul_mul_assoc, smul_mul_assoc, one_mul, mul_smul_comm, mul_smul_comm, h1, h2, ← mul_assoc, h1, one_mul]

theorem imag_eq {z : ℂ} (h : z.re = 0) : z = z.im * Complex.I := by
  apply Complex.ext <;> simp [h]

/-- the rotation in the middle, with the parts around it -/
theorem expo_run (z : ℂ) (hz : |z.re| ≤ 1e-14) {c : Circuit} (h : c.IPauliString) (hne : Circuit.noI c ≠ []) :
    ∃ (T W : Circuit) (p : ℕ), p ∈ (Circuit.noI c).map Gate.target ∧
      (∀ g ∈ T ++ W, ApiGate g ∧ g.target ∈ (Circuit.noI c).map Gate.target ∧ g.control ∈ (Circuit.noI c).map Gate.target) ∧
      opZ p * (Circuit.op W * Circuit.op T) = (Circuit.op W * Circuit.op T) * c.op ∧
      (∀ u a o, exponentiatePauliString z c u a o = (do
        let zRot ← (if u then pyGate3Opt "cRz" (some p) a ((-2 * z.im : ℝ) : ℂ) else pyGate3Opt "Rz" (some p) (some p) ((-2 * z.im : ℝ) : ℂ))
        let e1 ← (if o then do
            let x ← pyGate2Opt "X" a a
            pure ((T ++ W) ++ [x])
          else pure (T ++ W) : Except Exc Circuit)
        let e3 ← (if o then do
            let x ← pyGate2Opt "X" a a
            pure ((e1 ++ [zRot]) ++ [x])
          else pure (e1 ++ [zRot]) : Except Exc Circuit)
        pure ((e3 ++ W.adjoint) ++ T.adjoint, 1))) := by
  obtain ⟨ov, p, W, h1, h2, h3, h4⟩ := expo_prefix h hne
  refine ⟨toZc c, W, p, h2, h3, h4, ?_⟩
  intro u a o
  unfold exponentiatePauliString
  have hc : ¬ c.length = 0 := by
    intro e; rw [List.length_eq_zero_iff] at e; subst e; exact hne rfl
  rw [if_neg (not_lt.2 hz), if_neg hc, h1, except_ok_bind]
  simp only [addCircuit_eq, Circuit.addGate, List.nil_append]

theorem pre_inv {T W : Circuit} (h : ∀ g ∈ T ++ W, ApiGate g) :
    (Circuit.op T.adjoint * Circuit.op W.adjoint) * (Circuit.op W * Circuit.op T) = 1 := by
  have h1 := (circuit_adjoint_op (c := W) fun g hg => h g (by simp [hg])).1
  have h2 := (circuit_adjoint_op (c := T) fun g hg => h g (by simp [hg])).1
  calc (Circuit.op T.adjoint * Circuit.op W.adjoint) * (Circuit.op W * Circuit.op T)
      = Circuit.op T.adjoint * ((Circuit.op W.adjoint * Circuit.op W) * Circuit.op T) := by simp only [mul_assoc]
    _ = 1 := by rw [h1, one_mul, h2]

theorem adjoint_gates {c : Circuit} {s : List ℕ} (h : ∀ g ∈ c, ApiGate g ∧ g.target ∈ s ∧ g.control ∈ s) :
    ∀ g ∈ c.adjoint, ApiGate g ∧ g.target ∈ s ∧ g.control ∈ s := by
  intro g hg
  obtain ⟨x, hx, rfl⟩ := List.mem_map.1 (List.mem_reverse.1 hg)
  rw [(adjoint_target x).1, (adjoint_target x).2]
  exact ⟨.adj (h x hx).1, (h x hx).2⟩

/-- C38, general form: a string with at least one non-identity letter -/
theorem expo_ok (z : ℂ) (hz : |z.re| ≤ 1e-14) {c : Circuit} (h : c.IPauliString) (hne : Circuit.noI c ≠ []) :
    ∃ C, exponentiatePauliString z c = .ok (C, 1) ∧ IsExp ((z.im * Complex.I : ℂ) • c.op) (Circuit.op C) ∧
      ∀ g ∈ C, ApiGate g ∧ g.target ∈ c.map Gate.target ∧ g.control ∈ c.map Gate.target := by
  obtain ⟨T, W, p, hp, hg, hi, hr⟩ := expo_run z hz h hne
  obtain ⟨R, hR⟩ := makeGate_ok_of_name (ty := "Rz") (t := p) (c := p) (-2 * z.im) (.inl ⟨rfl, by decide⟩)
  have hRo : R.op = rotOp (opZ p) (-2 * z.im) := by
    have := (makeGate_spec hR).2.2.2
    simp [stdGate] at this
    rw [← this]; simp
  refine ⟨(((T ++ W) ++ [R]) ++ W.adjoint) ++ T.adjoint, ?_, ?_, ?_⟩
  · rw [hr]
    simp only [Bool.false_eq_true, if_false, pyGate3Opt, py3_real, hR, except_ok_bind, pure, Except.pure]
  · have hpre := pre_inv fun g hx => (hg g hx).1
    have := rot_conj hpre hi (-2 * z.im)
    rw [Circuit.op_append, Circuit.op_append, Circuit.op_append, Circuit.op_append, Circuit.op_cons, Circuit.op_nil, one_mul, hRo,
      ← mul_assoc (Circuit.op T.adjoint), this]
    exact rotOp_exp (pauliString_sq h) _
  · have hs : ∀ t ∈ (Circuit.noI c).map Gate.target, t ∈ c.map Gate.target := by
      intro t ht
      obtain ⟨x, hx, rfl⟩ := List.mem_map.1 ht
      exact List.mem_map_of_mem (List.mem_of_mem_filter hx)
    have hT := adjoint_gates (c := T) fun g hx => hg g (by simp [hx])
    have hW := adjoint_gates (c := W) fun g hx => hg g (by simp [hx])
    intro g hx
    have : ApiGate g ∧ g.target ∈ (Circuit.noI c).map Gate.target ∧ g.control ∈ (Circuit.noI c).map Gate.target := by
      rcases List.mem_append.1 hx with hx | hx
      · rcases List.mem_append.1 hx with hx | hx
        · rcases List.mem_append.1 hx with hx | hx
          · exact hg g hx
          · rw [List.mem_singleton.1 hx]
            have := makeGate_spec hR
            rw [this.2.1, this.2.2.1]
            exact ⟨.make hR, hp, hp⟩
        · exact hW g hx
      · exact hT g hx
    exact ⟨this.1, hs _ this.2.1, hs _ this.2.2⟩

/-- a nonempty string made of identities only has no rotation qubit: python raises `TypeError` -/
theorem expo_allI (z : ℂ) (hz : |z.re| ≤ 1e-14) {c : Circuit} (h : c.IPauliString) (hc : c ≠ []) (hI : Circuit.noI c = [])
    (u : Bool) (a : Option ℕ) (o : Bool) : exponentiatePauliString z c u a o = .error .typeError := by
  obtain ⟨ov, p, h1, h2⟩ := expoFold_ok c ⟨[], [], [], none, none⟩ h.gates (by simp [hI]) rfl
  rw [hI] at h2
  simp at h2
  subst h2
  unfold exponentiatePauliString
  have hc' : ¬ c.length = 0 := by rwa [List.length_eq_zero_iff]
  rw [if_neg (not_lt.2 hz), if_neg hc', h1, except_ok_bind]
  cases u <;> rfl

/-- C38: for every Pauli string `P` on distinct qubits and every imaginary coefficient, the returned circuit times the
returned phase is `exp(coefficient * P)`, and the circuit consists of gates of the API on the qubits of the string. -/
theorem C38_exponential (z : ℂ) (hz : z.re = 0) (c : Circuit) (h : c.IPauliString) (C : Circuit) (ph : ℂ)
    (hr : exponentiatePauliString z c = .ok (C, ph)) :
    IsExp (z • c.op) (ph • Circuit.op C) ∧ ∀ g ∈ C, ApiGate g ∧ g.target ∈ c.map Gate.target ∧ g.control ∈ c.map Gate.target := by
  have hz' : |z.re| ≤ 1e-14 := by rw [hz]; norm_num
  by_cases hc : c = []
  · subst hc
    unfold exponentiatePauliString at hr
    rw [if_neg (not_lt.2 hz')] at hr
    cases hr
    exact ⟨isExp_scalar z, by simp⟩
  · by_cases hI : Circuit.noI c = []
    · rw [expo_allI z hz' h hc hI] at hr; cases hr
    · obtain ⟨C', h1, h2, h3⟩ := expo_ok z hz' h hI
      rw [hr] at h1; cases h1
      rw [← imag_eq hz] at h2
      rw [one_smul]
      exact ⟨h2, h3⟩

/-- C38: the call returns for every Pauli string on distinct qubits that is empty or has a letter other than `I` … -/
theorem C38_returns (z : ℂ) (hz : z.re = 0) (c : Circuit) (h : c.IPauliString)
    (hc : c = [] ∨ ∃ g ∈ c, g.label ≠ "I") : ∃ C ph, exponentiatePauliString z c = .ok (C, ph) := by
  have hz' : |z.re| ≤ 1e-14 := by rw [hz]; norm_num
  rcases hc with rfl | ⟨g, hg, hl⟩
  · exact ⟨[], Complex.exp z, by unfold exponentiatePauliString; rw [if_neg (not_lt.2 hz')]; rfl⟩
  · have : Circuit.noI c ≠ [] := List.ne_nil_of_mem (List.mem_filter.2 ⟨hg, by simpa using hl⟩)
    obtain ⟨C, h1, _⟩ := expo_ok z hz' h this
    exact ⟨C, 1, h1⟩

/-- … and raises on the only other ones, nonempty strings of identities. -/
theorem C38_identity_letters_raise (z : ℂ) (hz : z.re = 0) (c : Circuit) (h : c.IPauliString) (hc : c ≠ [])
    (hI : ∀ g ∈ c, g.label = "I") : exponentiatePauliString z c = .error .typeError :=
  expo_allI z (by rw [hz]; norm_num) h hc (by
    unfold Circuit.noI; rw [List.filter_eq_nil_iff]; intro g hg; simp [hI g hg]) _ _ _

/-- C38: coefficients with a real part above the threshold are refused, whatever the string; a real part below it is
ignored when the string is not empty. -/
theorem C38_real_part (z : ℂ) (c : Circuit) :
    (1e-14 < |z.re| → exponentiatePauliString z c = .error .valueError) ∧
    (|z.re| ≤ 1e-14 → c ≠ [] → exponentiatePauliString z c = exponentiatePauliString (z.im * Complex.I) c) := by
  constructor
  · intro h; unfold exponentiatePauliString; rw [if_pos h]
  · intro h hc
    have hc' : ¬ c.length = 0 := by rwa [List.length_eq_zero_iff]
    unfold exponentiatePauliString
    rw [if_neg (not_lt.2 h), if_neg hc', if_neg (by norm_num), if_neg hc']
    simp

/-- C38 on the string `X₀ Y₂ I₃ Z₁` -/
theorem C38_example : Circuit.IPauliString [gX 0, gY 2, gI 3, gZ 1] ∧
    ∃ C ph, exponentiatePauliString (0.3 * Complex.I) [gX 0, gY 2, gI 3, gZ 1] = .ok (C, ph) := by
  have h : Circuit.IPauliString [gX 0, gY 2, gI 3, gZ 1] := by
    refine ⟨?_, by decide⟩
    intro g hg
    simp only [List.mem_cons, List.not_mem_nil, or_false] at hg
    rcases hg with rfl | rfl | rfl | rfl
    · exact ⟨.inr (.inl rfl), make_X _ 0⟩
    · exact ⟨.inr (.inr (.inl rfl)), make_Y _ 0⟩
    · exact ⟨.inl rfl, make_I _ 0⟩
    · exact ⟨.inr (.inr (.inr rfl)), make_Z _ 0⟩
  exact ⟨h, C38_returns _ (by norm_num) _ h (.inr ⟨gX 0, by simp, by decide⟩)⟩

/-- C38, finding F24: a string with two neighbouring letters on one qubit is refused (the CNOT would have equal qubits) -/
theorem C38_repeated_qubit_raises (t : ℕ) (y : ℝ) :
    exponentiatePauliString (y * Complex.I) [gX t, gX t] = .error .invalidArgument := by
  unfold exponentiatePauliString
  rw [if_neg (by norm_num), if_neg (by simp)]
  have h0 : ∀ c, makeGate "cX" c c 0 = .error .invalidArgument := by intro c; simp [makeGate]
  have h1 : ∀ c, pyGate2 "cX" c c = .error .invalidArgument := by
    intro c; unfold pyGate2; rw [if_pos (by decide)]; exact h0 c
  have hx : pyGate2 "H" t (gX t).control = .ok (gH t) := py_H t
  have hl : (gX t).label = "X" := rfl
  have ht : (gX t).target = t := rfl
  simp [expoStep, hl, hx, h1, ht, pure, Except.pure]

/-! ### C39 -/

theorem ctrl_conj {M M' U V : Op} {a : ℕ} (b : Bool) (hM' : ∀ x, Commute M' (proj a x)) (h1 : M' * M = 1)
    (h2 : M' * (U * M) = V) : M' * (ctrlOp a b U * M) = ctrlOp a b V := by
  unfold ctrlOp
  rw [add_mul, mul_add, ← mul_assoc, (hM' _).eq, mul_assoc, h1, mul_one, mul_assoc, ← mul_assoc, (hM' _).eq, mul_assoc, h2]

theorem x_ctrl_x {a : ℕ} {U : Op} (hU : Commute (opX a) U) : opX a * (ctrlOp a true U * opX a) = ctrlOp a false U := by
  have h : ∀ b, opX a * proj a b = proj a (!b) * opX a := by
    intro b; apply Op.ext'; intro ψ I
    simp only [Module.End.mul_apply, opX_apply, proj_apply]
    cases h : I.testBit a <;> cases b <;> simp [testBit_flipBit, h]
  unfold ctrlOp
  rw [add_mul, mul_add, ← mul_assoc, h, mul_assoc, opX_sq, mul_one, ← mul_assoc, ← mul_assoc, h, mul_assoc, mul_assoc, ← hU.eq,
    ← mul_assoc (opX a), opX_sq, one_mul]
  rfl

/-- C39: with `Use_cRz` and an ancilla that is not in the string, the circuit is `exp(coefficient * P)` when the ancilla
is 1 (0 with `Use_open_cRz`) and the identity otherwise. -/
theorem C39_controlled_partial (z : ℂ) (hz : z.re = 0) (c : Circuit) (h : c.IPauliString) (hl : ∃ g ∈ c, g.label ≠ "I")
    (a : ℕ) (ha : a ∉ c.map Gate.target) (o : Bool) :
    ∃ C U, exponentiatePauliString z c true (some a) o = .ok (C, 1) ∧ IsExp (z • c.op) U ∧ Circuit.op C = ctrlOp a (!o) U ∧
      ∀ g ∈ C, ApiGate g ∧ g.target ∈ a :: c.map Gate.target ∧ g.control ∈ a :: c.map Gate.target := by
  have hz' : |z.re| ≤ 1e-14 := by rw [hz]; norm_num
  obtain ⟨g0, hg0, hl0⟩ := hl
  have hne : Circuit.noI c ≠ [] := List.ne_nil_of_mem (List.mem_filter.2 ⟨hg0, by simpa using hl0⟩)
  obtain ⟨T, W, p, hp, hg, hi, hr⟩ := expo_run z hz' h hne
  have hs : ∀ t ∈ (Circuit.noI c).map Gate.target, t ∈ c.map Gate.target := by
    intro t ht
    obtain ⟨x, hx, rfl⟩ := List.mem_map.1 ht
    exact List.mem_map_of_mem (List.mem_of_mem_filter hx)
  have hna : ∀ t ∈ (Circuit.noI c).map Gate.target, a ≠ t := fun t ht e => ha (e ▸ hs t ht)
  have hpa : p ≠ a := fun e => hna p hp e.symm
  obtain ⟨R, hR⟩ := makeGate_ok_of_name (ty := "cRz") (t := p) (c := a) (-2 * z.im) (.inr ⟨hpa, by decide⟩)
  have hRo : R.op = ctrlOp a true (rotOp (opZ p) (-2 * z.im)) := by
    have := (makeGate_spec hR).2.2.2
    simp [stdGate, hpa] at this
    rw [← this]; simp
  have hT := adjoint_gates (c := T) fun g hx => hg g (by simp [hx])
  have hW := adjoint_gates (c := W) fun g hx => hg g (by simp [hx])
  have cm : ∀ m, Commute (op1 a m) (Circuit.op T.adjoint * Circuit.op W.adjoint) := fun m =>
    (circuit_comm_op1 m fun g hx => ⟨hna _ (hT g hx).2.1, hna _ (hT g hx).2.2⟩).mul_right
      (circuit_comm_op1 m fun g hx => ⟨hna _ (hW g hx).2.1, hna _ (hW g hx).2.2⟩)
  have cp : ∀ b, Commute (Circuit.op T.adjoint * Circuit.op W.adjoint) (proj a b) := fun b => (cm _).symm
  have hpre := pre_inv fun g hx => (hg g hx).1
  have hrot := rot_conj hpre hi (-2 * z.im)
  have hexp : IsExp (z • c.op) (rotOp c.op (-2 * z.im)) := by
    have := rotOp_exp (pauliString_sq h) z.im
    rwa [← imag_eq hz] at this
  have hxz : Commute (opX a) (rotOp (opZ p) (-2 * z.im)) := by
    unfold rotOp
    exact ((Commute.one_right _).smul_right _).sub_right (((op1_comm hpa _ _).symm).smul_right _)
  cases o with
  | false =>
    refine ⟨(((T ++ W) ++ [R]) ++ W.adjoint) ++ T.adjoint, rotOp c.op (-2 * z.im), ?_, hexp, ?_, ?_⟩
    · rw [hr]
      simp only [Bool.false_eq_true, if_false, if_true, pyGate3Opt, py3_real, hR, except_ok_bind, pure, Except.pure]
    · rw [Circuit.op_append, Circuit.op_append, Circuit.op_append, Circuit.op_append, Circuit.op_cons, Circuit.op_nil, one_mul,
        hRo, ← mul_assoc (Circuit.op T.adjoint)]
      exact ctrl_conj true cp hpre hrot
    · intro g hx
      have : ApiGate g ∧ (g.target = a ∨ g.target ∈ (Circuit.noI c).map Gate.target) ∧ (g.control = a ∨ g.control ∈ (Circuit.noI c).map Gate.target) := by
        rcases List.mem_append.1 hx with hx | hx
        · rcases List.mem_append.1 hx with hx | hx
          · rcases List.mem_append.1 hx with hx | hx
            · exact ⟨(hg g hx).1, .inr (hg g hx).2.1, .inr (hg g hx).2.2⟩
            · rw [List.mem_singleton.1 hx]
              have := makeGate_spec hR
              rw [this.2.1, this.2.2.1]
              exact ⟨.make hR, .inr hp, .inl rfl⟩
          · exact ⟨(hW g hx).1, .inr (hW g hx).2.1, .inr (hW g hx).2.2⟩
        · exact ⟨(hT g hx).1, .inr (hT g hx).2.1, .inr (hT g hx).2.2⟩
      exact ⟨this.1, List.mem_cons.2 (this.2.1.imp id (hs _)), List.mem_cons.2 (this.2.2.imp id (hs _))⟩
  | true =>
    refine ⟨((((((T ++ W) ++ [gX a]) ++ [R]) ++ [gX a])) ++ W.adjoint) ++ T.adjoint, rotOp c.op (-2 * z.im), ?_, hexp, ?_, ?_⟩
    · rw [hr]
      simp only [if_true, pyGate3Opt, pyGate2Opt, py_X, py3_real, hR, except_ok_bind, pure, Except.pure]
    · rw [Circuit.op_append, Circuit.op_append, Circuit.op_append, Circuit.op_append, Circuit.op_append, Circuit.op_append]
      simp only [Circuit.op_cons, Circuit.op_nil, one_mul, op_gX]
      rw [hRo, ← mul_assoc (Circuit.op T.adjoint), ← mul_assoc (ctrlOp a true _), ← mul_assoc (opX a), x_ctrl_x hxz]
      exact ctrl_conj false cp hpre hrot
    · intro g hx
      have : ApiGate g ∧ (g.target = a ∨ g.target ∈ (Circuit.noI c).map Gate.target) ∧ (g.control = a ∨ g.control ∈ (Circuit.noI c).map Gate.target) := by
        rcases List.mem_append.1 hx with hx | hx
        · rcases List.mem_append.1 hx with hx | hx
          · rcases List.mem_append.1 hx with hx | hx
            · rcases List.mem_append.1 hx with hx | hx
              · rcases List.mem_append.1 hx with hx | hx
                · exact ⟨(hg g hx).1, .inr (hg g hx).2.1, .inr (hg g hx).2.2⟩
                · rw [List.mem_singleton.1 hx]; exact ⟨.make (make_X a 0), .inl rfl, .inl rfl⟩
              · rw [List.mem_singleton.1 hx]
                have := makeGate_spec hR
                rw [this.2.1, this.2.2.1]
                exact ⟨.make hR, .inr hp, .inl rfl⟩
            · rw [List.mem_singleton.1 hx]; exact ⟨.make (make_X a 0), .inl rfl, .inl rfl⟩
          · exact ⟨(hW g hx).1, .inr (hW g hx).2.1, .inr (hW g hx).2.2⟩
        · exact ⟨(hT g hx).1, .inr (hT g hx).2.1, .inr (hT g hx).2.2⟩
      exact ⟨this.1, List.mem_cons.2 (this.2.1.imp id (hs _)), List.mem_cons.2 (this.2.2.imp id (hs _))⟩

/-- C39, finding F21: the identity string is not controlled.  With any ancilla the result is the phase `exp(coefficient)`
and no gate, so the exponential is applied whatever the ancilla holds: for `coefficient = iπ` the state with ancilla 0 is
multiplied by -1 although the controlled operator leaves it alone. -/
theorem C39_refuted_identity (a : ℕ) (o : Bool) : ∃ C ph, exponentiatePauliString (Real.pi * Complex.I) [] true (some a) o = .ok (C, ph) ∧
    ∀ U b, IsExp ((Real.pi * Complex.I : ℂ) • (Circuit.op [])) U → ph • Circuit.op C ≠ ctrlOp a b U := by
  refine ⟨[], -1, ?_, ?_⟩
  · unfold exponentiatePauliString
    rw [if_neg (by norm_num)]
    simp [Complex.exp_pi_mul_I, pure, Except.pure]
  · intro U b hU e
    have hu : U = Complex.exp (Real.pi * Complex.I) • (1 : Op) := hU.unique (isExp_scalar _)
    rw [hu, Complex.exp_pi_mul_I] at e
    let J : ℕ := if b then 0 else 2 ^ a
    have hJ : J.testBit a = !b := by cases b <;> simp [J]
    have := congrFun (congrFun (congrArg DFunLike.coe e) (fun _ => 1)) J
    rw [ctrlOp_apply, hJ] at this
    simp at this
    norm_num at this

theorem C39_example : ∃ C, exponentiatePauliString (0.3 * Complex.I) [gX 0, gZ 1] true (some 2) true = .ok (C, 1) := by
  have h : Circuit.IPauliString [gX 0, gZ 1] := by
    refine ⟨?_, by decide⟩
    intro g hg
    simp only [List.mem_cons, List.not_mem_nil, or_false] at hg
    rcases hg with rfl | rfl
    · exact ⟨.inr (.inl rfl), make_X _ 0⟩
    · exact ⟨.inr (.inr (.inr rfl)), make_Z _ 0⟩
  obtain ⟨C, _, e, _⟩ := C39_controlled_partial (0.3 * Complex.I) (by norm_num) _ h ⟨gX 0, by simp, by decide⟩ 2 (by decide) true
  exact ⟨C, e⟩

/-! ### C40 -/

theorem applyInOrder_append (l l' : List Op) : applyInOrder (l ++ l') = applyInOrder l' * applyInOrder l := by
  induction l with
  | nil => simp [applyInOrder]
  | cons U l ih => rw [List.cons_append, applyInOrder, ih, applyInOrder, mul_assoc]

theorem applyInOrder_replicate (l : List Op) (N : ℕ) : applyInOrder (List.replicate N l).flatten = applyInOrder l ^ N := by
  induction N with
  | zero => rfl
  | succ N ih => rw [List.replicate_succ, List.flatten_cons, applyInOrder_append, ih, pow_succ]

theorem foldl_addGate (C s : Circuit) : C.foldl Circuit.addGate s = s ++ C := addCircuit_eq s C

/-- the loop, for any controlled flag -/
theorem trotterLoop_ok (cr : Bool × Option ℕ × Bool) (f : ℂ → ℂ) (R : ℂ × Circuit → Op → Prop) (Q : Gate → Prop) (A : QubitOperator)
    (h : ∀ t ∈ A, ∃ C ph, exponentiatePauliString (f t.1) t.2 cr.1 cr.2.1 cr.2.2 = .ok (C, ph) ∧ R t (ph • Circuit.op C) ∧ ∀ g ∈ C, Q g) :
    ∃ C ph Us, trotterLoop cr f A = .ok (C, ph) ∧ List.Forall₂ R A Us ∧ ph • Circuit.op C = applyInOrder Us ∧ ∀ g ∈ C, Q g := by
  have key : ∀ (A : QubitOperator) (s : Circuit × ℂ), (∀ g ∈ s.1, Q g) →
      (∀ t ∈ A, ∃ C ph, exponentiatePauliString (f t.1) t.2 cr.1 cr.2.1 cr.2.2 = .ok (C, ph) ∧ R t (ph • Circuit.op C) ∧ ∀ g ∈ C, Q g) →
      ∃ C ph Us, A.foldlM (fun (s : Circuit × ℂ) t => (do
        let (gen, ph) ← exponentiatePauliString (f t.1) t.2 cr.1 cr.2.1 cr.2.2
        pure (gen.foldl Circuit.addGate s.1, s.2 * ph) : Except Exc (Circuit × ℂ))) s = .ok (C, ph) ∧ List.Forall₂ R A Us ∧
        ph • Circuit.op C = applyInOrder Us * (s.2 • Circuit.op s.1) ∧ ∀ g ∈ C, Q g := by
    intro A
    induction A with
    | nil => intro s hs _; exact ⟨s.1, s.2, [], rfl, .nil, by rw [applyInOrder, one_mul], hs⟩
    | cons t A ih =>
      intro s hs h
      obtain ⟨C, ph, h1, h2, h3⟩ := h t (by simp)
      obtain ⟨C', ph', Us, k1, k2, k3, k4⟩ := ih (s.1 ++ C, s.2 * ph) (by
        intro g hg; rcases List.mem_append.1 hg with hg | hg
        · exact hs g hg
        · exact h3 g hg) (fun x hx => h x (by simp [hx]))
      refine ⟨C', ph', (ph • Circuit.op C) :: Us, ?_, .cons h2 k2, ?_, k4⟩
      · rw [List.foldlM_cons, h1]
        simp only [except_ok_bind, foldl_addGate, pure, Except.pure] at k1 ⊢
        exact k1
      · rw [k3, applyInOrder, Circuit.op_append, mul_assoc]
        congr 1
        rw [smul_mul_smul_comm, mul_comm]
  obtain ⟨C, ph, Us, h1, h2, h3, h4⟩ := key A ([], 1) (by simp) h
  exact ⟨C, ph, Us, h1, h2, by rw [h3]; simp, h4⟩

theorem trotterTerms_eq (A : QubitOperator) (f : ℂ) (N : ℤ) :
    trotterTerms A f N = (List.replicate N.toNat (A.map fun t => (f * t.1 / (N : ℂ), t.2))).flatten := by
  have h1 : ∀ (A : QubitOperator) (ho : QubitOperator), A.foldl (fun ho t => QubitOperator.addTerm ho (f * t.1 / (N : ℂ)) t.2) ho =
      ho ++ A.map fun t => (f * t.1 / (N : ℂ), t.2) := by
    intro A
    induction A with
    | nil => intro ho; simp
    | cons t A ih => intro ho; rw [List.foldl_cons, ih]; simp [QubitOperator.addTerm]
  have h2 : ∀ (k : ℕ), (List.range k).foldl (fun ho _ =>
      A.foldl (fun ho t => QubitOperator.addTerm ho (f * t.1 / (N : ℂ)) t.2) ho) [] =
      (List.replicate k (A.map fun t => (f * t.1 / (N : ℂ), t.2))).flatten := by
    intro k
    induction k with
    | zero => rfl
    | succ k ih =>
      rw [List.range_succ, List.foldl_append, ih, List.foldl_cons, List.foldl_nil, h1, List.replicate_succ', List.flatten_append]
      simp
  exact h2 _

/-- a term `trotterize` accepts: a Pauli string on distinct qubits that is empty or has a letter other than `I` -/
def TrotterTerm (c : Circuit) : Prop := c.IPauliString ∧ (c = [] ∨ ∃ g ∈ c, g.label ≠ "I")

theorem forall₂_append_left {α : Type} {R : α → Op → Prop} : ∀ {a b : List α} {Us : List Op}, List.Forall₂ R (a ++ b) Us →
    ∃ l1 l2, List.Forall₂ R a l1 ∧ List.Forall₂ R b l2 ∧ Us = l1 ++ l2 := by
  intro a
  induction a with
  | nil => intro b Us h; exact ⟨[], Us, .nil, h, rfl⟩
  | cons x a ih =>
    intro b Us h
    rw [List.cons_append] at h
    cases h with
    | cons h1 h2 =>
      obtain ⟨l1, l2, k1, k2, rfl⟩ := ih h2
      exact ⟨_ :: l1, l2, .cons h1 k1, k2, rfl⟩

theorem forall₂_replicate {α : Type} {R : α → Op → Prop} {A : List α} : ∀ (N : ℕ) {Us : List Op},
    List.Forall₂ R (List.replicate N A).flatten Us →
    ∃ Vs : List (List Op), Us = Vs.flatten ∧ Vs.length = N ∧ ∀ V ∈ Vs, List.Forall₂ R A V := by
  intro N
  induction N with
  | zero => intro Us h; cases h; exact ⟨[], rfl, rfl, by simp⟩
  | succ N ih =>
    intro Us h
    rw [List.replicate_succ, List.flatten_cons] at h
    obtain ⟨l1, l2, h1, h2, rfl⟩ := forall₂_append_left h
    obtain ⟨Vs, rfl, k2, k3⟩ := ih h2
    exact ⟨l1 :: Vs, by simp, by simp [k2], by
      intro V hV; rcases List.mem_cons.1 hV with rfl | hV
      · exact h1
      · exact k3 V hV⟩

theorem forall₂_unique {α : Type} {R : α → Op → Prop} (hR : ∀ a U V, R a U → R a V → U = V) {A : List α} {U V : List Op}
    (h : List.Forall₂ R A U) (h' : List.Forall₂ R A V) : U = V := by
  induction h generalizing V with
  | nil => cases h'; rfl
  | cons h1 _ ih => cases h' with | cons k1 k2 => rw [hR _ _ _ h1 k1, ih k2]

/-- `trotterize`/`trotterize_w_cRz` when every term has the wanted exponential -/
theorem trotterBody_ok (cr : Bool × Option ℕ × Bool) (R : ℂ → Circuit → Op → Prop) (hR : ∀ z c U V, R z c U → R z c V → U = V)
    (Q : Gate → Prop) (A : QubitOperator) (factor : ℂ) (N order : ℤ) (ho : order ≤ 1) (hN : 0 ≤ N)
    (h : ∀ t ∈ A, ∃ C ph, exponentiatePauliString (factor * t.1 / (N : ℂ)) t.2 cr.1 cr.2.1 cr.2.2 = .ok (C, ph) ∧
      R (factor * t.1 / (N : ℂ)) t.2 (ph • Circuit.op C) ∧ ∀ g ∈ C, Q g) :
    ∃ C ph Us, trotterBody cr A factor N order = .ok (C, ph) ∧
      List.Forall₂ (fun t U => R (factor * t.1 / (N : ℂ)) t.2 U) A Us ∧ ph • Circuit.op C = applyInOrder Us ^ N.toNat ∧ ∀ g ∈ C, Q g := by
  obtain ⟨C1, ph1, Us1, f1, f2, f3, f4⟩ := trotterLoop_ok cr (fun z => factor * z / (N : ℂ))
      (fun t U => R (factor * t.1 / (N : ℂ)) t.2 U) Q A h
  unfold trotterBody
  by_cases h1 : N = 1 ∧ order = 1
  · rw [if_pos h1]
    obtain ⟨rfl, _⟩ := h1
    have e1 : (fun z : ℂ => factor * z / ((1 : ℤ) : ℂ)) = fun z => factor * z := by funext z; simp
    rw [e1] at f1
    exact ⟨C1, ph1, Us1, f1, f2, by rw [f3]; simp, f4⟩
  · rw [if_neg h1, if_neg (not_lt.2 ho)]
    rw [trotterTerms_eq]
    obtain ⟨C, ph, Us, h1, h2, h3, h4⟩ := trotterLoop_ok cr id (fun t U => R t.1 t.2 U) Q
      (List.replicate N.toNat (A.map fun t => (factor * t.1 / (N : ℂ), t.2))).flatten (by
        intro t ht
        obtain ⟨l, hl, ht⟩ := List.mem_flatten.1 ht
        rw [List.eq_of_mem_replicate hl] at ht
        obtain ⟨x, hx, rfl⟩ := List.mem_map.1 ht
        exact h x hx)
    obtain ⟨Vs, rfl, k2, k3⟩ := forall₂_replicate _ h2
    refine ⟨C, ph, Us1, h1, f2, ?_, h4⟩
    have : Vs = List.replicate N.toNat Us1 := by
      rw [List.eq_replicate_iff]
      refine ⟨k2, fun V hV => ?_⟩
      have := k3 V hV
      rw [List.forall₂_map_left_iff] at this
      exact forall₂_unique (R := fun (t : ℂ × Circuit) U => R (factor * t.1 / (N : ℂ)) t.2 U) (fun a U V => hR _ _ U V) this f2
    rw [h3, this, applyInOrder_replicate]

/-- C40: for every operator whose terms are Pauli strings (with `factor * c_k` imaginary) and every number of Trotter steps,
the circuit times the phase is `(∏ₖ exp(factor c_k P_k / N))^N`, factors applied in the order of the terms. -/
theorem C40_trotterize (A : QubitOperator) (factor : ℂ) (N order : ℤ) (ho : order ≤ 1) (hN : 0 ≤ N)
    (hA : ∀ t ∈ A, TrotterTerm t.2) (hf : ∀ t ∈ A, (factor * t.1).re = 0) :
    ∃ C ph Us, trotterize A factor N order = .ok (C, ph) ∧
      List.Forall₂ (fun t U => IsExp ((factor * t.1 / (N : ℂ)) • t.2.op) U) A Us ∧
      ph • Circuit.op C = applyInOrder Us ^ N.toNat ∧
      ∀ g ∈ C, ApiGate g := by
  refine trotterBody_ok _ (fun z c U => IsExp (z • c.op) U) (fun z c U V h h' => h.unique h') _ A factor N order ho hN ?_
  intro t ht
  have hre : (factor * t.1 / (N : ℂ)).re = 0 := by
    rw [show (N : ℂ) = ((N : ℝ) : ℂ) by push_cast; rfl, Complex.div_ofReal_re, hf t ht, zero_div]
  obtain ⟨C, ph, h1⟩ := C38_returns _ hre t.2 (hA t ht).1 (hA t ht).2
  obtain ⟨h2, h3⟩ := C38_exponential _ hre t.2 (hA t ht).1 C ph h1
  exact ⟨C, ph, h1, h2, fun g hg => (h3 g hg).1⟩

/-- C40: higher orders are refused -/
theorem C40_order (A : QubitOperator) (factor : ℂ) (N order : ℤ) (ho : 1 < order) :
    trotterize A factor N order = .error .notImplemented := by
  unfold trotterize trotterBody
  rw [if_neg (by rintro ⟨_, rfl⟩; exact absurd ho (lt_irrefl _)), if_pos ho]

/-- C39: `trotterize_w_cRz` on an operator without identity terms and an ancilla outside of it controls every factor -/
theorem C39_trotterize_w_cRz_partial (A : QubitOperator) (a : ℕ) (factor : ℂ) (o : Bool) (N order : ℤ) (ho : order ≤ 1) (hN : 0 ≤ N)
    (hA : ∀ t ∈ A, t.2.IPauliString ∧ (∃ g ∈ t.2, g.label ≠ "I") ∧ a ∉ t.2.map Gate.target)
    (hf : ∀ t ∈ A, (factor * t.1).re = 0) :
    ∃ C ph Us, trotterizeWCRz A a factor o N order = .ok (C, ph) ∧
      List.Forall₂ (fun t U => ∃ V, IsExp ((factor * t.1 / (N : ℂ)) • t.2.op) V ∧ U = ctrlOp a (!o) V) A Us ∧
      ph • Circuit.op C = applyInOrder Us ^ N.toNat ∧ ∀ g ∈ C, ApiGate g := by
  refine trotterBody_ok _ (fun z c U => ∃ V, IsExp (z • c.op) V ∧ U = ctrlOp a (!o) V) ?_ _ A factor N order ho hN ?_
  · rintro z c U V ⟨U', h, rfl⟩ ⟨V', h', rfl⟩
    rw [h.unique h']
  · intro t ht
    have hre : (factor * t.1 / (N : ℂ)).re = 0 := by
      rw [show (N : ℂ) = ((N : ℝ) : ℂ) by push_cast; rfl, Complex.div_ofReal_re, hf t ht, zero_div]
    obtain ⟨h1, h2, h3⟩ := hA t ht
    obtain ⟨C, U, k1, k2, k3, k4⟩ := C39_controlled_partial _ hre t.2 h1 h2 a h3 o
    exact ⟨C, 1, k1, ⟨U, k2, by rw [one_smul, k3]⟩, fun g hg => (k4 g hg).1⟩

/-- C40 on `0.5 X₀ + 0.25 + 2 Z₀Z₁` with factor `-i t` -/
theorem C40_example (t : ℝ) : ∃ C ph, trotterize [(0.5, [gX 0]), (0.25, []), (2, [gZ 0, gZ 1])] (-(t * Complex.I)) 3 = .ok (C, ph) := by
  obtain ⟨C, ph, _, h, _⟩ := C40_trotterize [(0.5, [gX 0]), (0.25, []), (2, [gZ 0, gZ 1])] (-(t * Complex.I)) 3 1 le_rfl (by norm_num)
    (by
      intro x hx
      simp only [List.mem_cons, List.not_mem_nil, or_false] at hx
      rcases hx with rfl | rfl | rfl
      · refine ⟨⟨?_, by decide⟩, .inr ⟨gX 0, by simp, by decide⟩⟩
        intro g hg; rw [List.mem_singleton.1 hg]; exact ⟨.inr (.inl rfl), make_X _ 0⟩
      · exact ⟨⟨by simp, by simp⟩, .inl rfl⟩
      · refine ⟨⟨?_, by decide⟩, .inr ⟨gZ 0, by simp, by decide⟩⟩
        intro g hg
        simp only [List.mem_cons, List.not_mem_nil, or_false] at hg
        rcases hg with rfl | rfl <;> exact ⟨.inr (.inr (.inr rfl)), make_Z _ 0⟩)
    (by
      intro x hx
      simp only [List.mem_cons, List.not_mem_nil, or_false] at hx
      rcases hx with rfl | rfl | rfl <;> norm_num [Complex.mul_re])
  exact ⟨C, ph, h⟩

end QF
