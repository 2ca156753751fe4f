import Verif.Lemmas.Exact

/-!
Properties C05–C10: gate and circuit application.

`Computer.WF` describes a computer between API calls, `Computer.psi` its amplitudes, `matOp t c m` the
operator "matrix `m` on qubits `c`,`t`, identity elsewhere" (Spec/GateOp.lean), `Circuit.op` the product of
the gate operators in execution order (Spec/CircuitOp.lean).
-/
namespace QF

/-- C05: `apply_gate_safe` applies the gate matrix with entries of modulus ≤ 1e-16 replaced by 0, for every
matrix whatsoever; the scratch vector is left zero (part of `WF`), so the result does not depend on history. -/
theorem C05_apply_gate_safe (q : Computer) (g : Gate) (hq : q.WF)
    (ht : g.target < q.nqubit) (hc : g.control < q.nqubit) :
    ∃ q' m', q.applyGateSafe g = .ok q' ∧ q'.WF ∧ q'.nqubit = q.nqubit ∧
      (∀ i j, m' i j = if 1e-16 < ‖g.mat i j‖ then g.mat i j else 0) ∧
      q'.psi = matOp g.target g.control m' q.psi := by
  obtain ⟨q', e1, e2, e3, e4⟩ := applyGateSafe_ok q g hq ht hc
  refine ⟨q', truncMat g.mat, e1, e2, e3, ?_, e4⟩
  intro i j
  simp only [truncMat, trunc, gt_iff_lt, thr]

/-- the one-qubit computer in state `|0⟩` and the gate `Ry(1)`: the hypotheses of C05–C07 are met -/
example : (Computer.init 1).WF ∧ ∃ g, makeGate "Ry" 0 0 1 = .ok g ∧ ApiGate g ∧ FastOK g ∧
    g.target < (Computer.init 1).nqubit := by
  have h := makeGate_of_made (.Ry 0 1)
  exact ⟨.init 1, _, h, .make h, made_fast (.Ry 0 1) (by decide), by simp [Computer.init]⟩

/-- C06: the fast one-qubit kernel applies a matrix that agrees with the gate's matrix entrywise to 1e-16
(exactly, if no non-zero entry is that small), never reads or writes outside the state vector, keeps the
scratch space clean and counts one operation.  `hbug` excludes the mis-parsed comparison, see
`C06_swap_branch`. -/
theorem C06_fast_one_qubit_partial (q : Computer) (g : Gate) (hq : q.WF) (hg : g.target = g.control)
    (ht : g.target < q.nqubit)
    (hbug : ‖g.mat 0 0‖ + ‖g.mat 1 1‖ ≤ 1e-16 → g.mat 0 1 = g.mat 1 0 → g.mat 0 1 = 1) :
    ∃ q' m', q.applyGate g = .ok q' ∧ q'.WF ∧ q'.nqubit = q.nqubit ∧
      q'.noneOps = q.noneOps + 1 ∧ q'.ntwoOps = q.ntwoOps ∧
      (∀ i j, ‖m' i j - g.mat i j‖ ≤ 1e-16) ∧
      ((∀ i j, g.mat i j ≠ 0 → 1e-16 < ‖g.mat i j‖) → m' = g.mat) ∧
      q'.psi = matOp g.target g.control m' q.psi := by
  obtain ⟨q', m', e1, e2, e3, e4, e5, e6, e7, e8⟩ := apply1_ok q g hq hg ht hbug
  refine ⟨q', m', ?_, e2, e3, e4, e5, e6, fun h => eq_of_resolved h e7, e8⟩
  have h1 : g.nqubits = 1 := by simp [Gate.nqubits, hg]
  simp only [Computer.applyGate, h1, if_true, e1, except_ok_bind, show ((1 : ℕ) = 2) = False by simp, if_false,
    pure, Except.pure]

/-- C06: `hbug` holds for every gate of `qforte.gate` except `Rx` at odd multiples of π (to within the
threshold) -/
theorem C06_hypothesis_named_gates {ty : String} {t c : ℕ} {θ : ℝ} {g : Gate}
    (h : makeGate ty t c θ = .ok g) (hx : ty = "Rx" → 1e-16 < |Real.cos (θ / 2)|) : FastOK g := by
  by_cases hty : ty = "Rx"
  · exact rx_fast (made_of_makeGate h) hty (hx hty)
  · exact made_fast (made_of_makeGate h) hty

/-- C06 (finding): with equal off-diagonal entries and no diagonal the kernel always acts as Pauli X,
whatever the entries are -/
theorem C06_swap_branch (q : Computer) (g : Gate) (hq : q.WF) (hg : g.target = g.control)
    (ht : g.target < q.nqubit) (hd : ‖g.mat 0 0‖ + ‖g.mat 1 1‖ ≤ 1e-16) (he : g.mat 0 1 = g.mat 1 0) :
    ∃ q', q.applyGate g = .ok q' ∧ q'.psi = opX g.target q.psi := by
  obtain ⟨q', e1, e2⟩ := apply1_swap q g hq ht hd he
  refine ⟨q', ?_, e2⟩
  have h1 : g.nqubits = 1 := by simp [Gate.nqubits, hg]
  simp only [Computer.applyGate, h1, if_true, e1, except_ok_bind, show ((1 : ℕ) = 2) = False by simp, if_false,
    pure, Except.pure]

theorem rx_pi_mat : (mat1 (Real.cos (0.5 * normalizeAngle Real.pi (4 * Real.pi)) : ℝ)
    (-(Complex.I * (Real.sin (0.5 * normalizeAngle Real.pi (4 * Real.pi)) : ℝ)))
    (-(Complex.I * (Real.sin (0.5 * normalizeAngle Real.pi (4 * Real.pi)) : ℝ)))
    (Real.cos (0.5 * normalizeAngle Real.pi (4 * Real.pi)) : ℝ)) = mat1 0 (-Complex.I) (-Complex.I) 0 := by
  have hp := Real.pi_pos
  rw [normalizeAngle_of_abs_le (by linarith) (by rw [abs_of_pos hp]; linarith)]
  rw [show 0.5 * Real.pi = Real.pi / 2 by ring, Real.cos_pi_div_two, Real.sin_pi_div_two]
  simp

/-- C06/C08 (finding, exact arithmetic): `apply_gate(Rx(π))` and `apply_gate_safe(Rx(π))` leave different
states: the first loses the factor `-i`. -/
theorem C08_rx_pi_differs : ∃ g, makeGate "Rx" 0 0 Real.pi = .ok g ∧
    ∃ q1 q2, (Computer.init 1).applyGate g = .ok q1 ∧ (Computer.init 1).applyGateSafe g = .ok q2 ∧
      q1.psi 1 = 1 ∧ q2.psi 1 = -Complex.I := by
  have h := makeGate_of_made (.Rx 0 Real.pi)
  rw [rx_pi_mat] at h
  refine ⟨_, h, ?_⟩
  obtain ⟨q1, e1, e2⟩ := C06_swap_branch (Computer.init 1) (⟨"Rx", 0, 0, mat1 0 (-Complex.I) (-Complex.I) 0, some (normalizeAngle Real.pi (4 * Real.pi), true)⟩) (.init 1)
    rfl (by simp [Computer.init]) (by simp [mat1]; norm_num) (by simp [mat1])
  obtain ⟨q2, f1, f2, f3, f4⟩ := applyGateSafe_exact (q := Computer.init 1) (.init 1)
    (g := ⟨"Rx", 0, 0, mat1 0 (-Complex.I) (-Complex.I) 0, some (normalizeAngle Real.pi (4 * Real.pi), true)⟩)
    (by simp [Computer.init]) (by simp [Computer.init]) (.mat1 .zero .negI .negI .zero)
  refine ⟨q1, q2, e1, f1, ?_, ?_⟩
  · rw [e2, opX_apply]
    show vec _ _ = 1
    have : flipBit 1 0 = 0 := by decide
    rw [this]; simp [Computer.init, vec]
  · rw [f4]
    simp only [Gate.op, matOp, if_true, op1_apply, toM2]
    have h1 : (1 : ℕ).testBit 0 = true := by decide
    have h2 : setBit 1 0 false = 0 := by decide
    have h3 : setBit 1 0 true = 1 := by decide
    rw [h1, h2, h3]
    simp [ix1, mat1, Computer.psi, Computer.init, vec]

/-- C07: the fast two-qubit kernels (target below or above control, controlled or general) apply a matrix
that agrees with the gate's matrix entrywise to 1e-16 (exactly, if no non-zero entry is that small) and touch
only in-range memory. -/
theorem C07_fast_two_qubit_partial (q : Computer) (g : Gate) (hq : q.WF) (hg : g.target ≠ g.control)
    (ht : g.target < q.nqubit) (hc : g.control < q.nqubit)
    (hu : g.mat.conjTranspose * g.mat = 1)
    (hbug : ‖g.mat 2 2‖ + ‖g.mat 3 3‖ ≤ 1e-16 → g.mat 2 3 = g.mat 3 2 → g.mat 2 3 = 1) :
    ∃ q' m', q.applyGate g = .ok q' ∧ q'.WF ∧ q'.nqubit = q.nqubit ∧
      (∀ i j, ‖m' i j - g.mat i j‖ ≤ 1e-16) ∧
      ((∀ i j, g.mat i j ≠ 0 → 1e-16 < ‖g.mat i j‖) → m' = g.mat) ∧
      q'.psi = matOp g.target g.control m' q.psi := by
  obtain ⟨q', m', e1, e2, e3, e4, e5, e6⟩ := applyGate_ok q g hq ht hc
    (by unfold MatUnitary; rw [if_neg hg]; exact hu) ⟨fun h => absurd h hg, fun _ => hbug⟩
  exact ⟨q', m', e1, e2, e3, e4, fun h => eq_of_resolved h e5, e6⟩

/-- C07: two-qubit gates made by `qforte.gate` meet the hypotheses -/
theorem C07_hypotheses_named_gates {ty : String} {t c : ℕ} {θ : ℝ} {g : Gate}
    (h : makeGate ty t c θ = .ok g) (htc : t ≠ c) :
    g.mat.conjTranspose * g.mat = 1 ∧
    (‖g.mat 2 2‖ + ‖g.mat 3 3‖ ≤ 1e-16 → g.mat 2 3 = g.mat 3 2 → g.mat 2 3 = 1) := by
  have hs := makeGate_spec h
  have hne : g.target ≠ g.control := by rw [hs.2.1, hs.2.2.1]; exact htc
  have hu := api_unitary (.make h)
  unfold MatUnitary at hu
  rw [if_neg hne] at hu
  refine ⟨hu, (C06_hypothesis_named_gates h ?_).2 hne⟩
  rintro rfl
  exfalso
  rcases made_name (made_of_makeGate h) with hn | hn
  · exact htc hn.1
  · exact absurd hn.2 (by decide)

/-- C08: on circuits of unitary gates with no non-zero matrix entry below 1e-16 and no gate in the mis-parsed
branch, `apply_circuit` and `apply_circuit_safe` leave the same coefficient vector. -/
theorem C08_fast_eq_safe_partial (q : Computer) (c : Circuit) (hq : q.WF) (hf : c.Fits q.nqubit)
    (hg : ∀ g ∈ c, ExactGate g) :
    ∃ q1 q2, q.applyCircuit c = .ok q1 ∧ q.applyCircuitSafe c = .ok q2 ∧ q1.coeff = q2.coeff ∧
      q1.newCoeff = q2.newCoeff ∧ q1.psi = c.op q.psi := by
  obtain ⟨q1, e1, e2, e3, e4⟩ := applyCircuit_exact c hq hf hg
  obtain ⟨q2, f1, f2, f3, f4⟩ := applyCircuitSafe_exact c hq hf (fun g h => (hg g h).resolved)
  refine ⟨q1, q2, e1, f1, ?_, ?_, e4⟩
  · apply vec_ext
    · rw [e2.len, f2.len, e3, f3]
    · show q1.psi = q2.psi
      rw [e4, f4]
  · rw [e2.new, f2.new, e3, f3]

theorem made_rx_param {ty : String} {t c : ℕ} {θ : ℝ} {g : Gate} (h : Made ty t c θ g) (hty : ty = "Rx")
    (hp : g.param = none) : False := by
  cases h <;> first | (exfalso; revert hty; decide) | skip
  cases hp

/-- C08: the hypotheses on gates hold for all parameter-free gates of `qforte.gate` and their adjoints -/
theorem C08_hypotheses_constant_gates {ty : String} {t c : ℕ} {θ : ℝ} {g : Gate}
    (h : makeGate ty t c θ = .ok g) (hp : g.param = none) : ExactGate g ∧ ExactGate g.adjoint := by
  have hm := made_of_makeGate h
  have hx : ty ≠ "Rx" := by
    rintro rfl
    exact made_rx_param hm rfl hp
  have he : ExactGate g := ⟨api_unitary (.make h), made_fast hm hx, made_resolved hm hp⟩
  exact ⟨he, he.adjoint (.make h)⟩

/-- C09: running the same circuit on two computers leaves `inner_product` unchanged (so norms are preserved). -/
theorem C09_inner_product_partial (q1 q2 : Computer) (c : Circuit) (h1 : q1.WF) (h2 : q2.WF)
    (hn : q1.nqubit = q2.nqubit) (hf : c.Fits q1.nqubit) (hg : ∀ g ∈ c, ExactGate g) :
    ∃ r1 r2, q1.applyCircuit c = .ok r1 ∧ q2.applyCircuit c = .ok r2 ∧ r1.dot r2 = q1.dot q2 := by
  obtain ⟨r1, e1, e2, e3, e4⟩ := applyCircuit_exact c h1 hf hg
  obtain ⟨r2, f1, f2, f3, f4⟩ := applyCircuit_exact c h2 (hn ▸ hf) hg
  refine ⟨r1, r2, e1, f1, ?_⟩
  rw [dot_eq e2 f2 (by rw [e3, f3, hn]), dot_eq h1 h2 hn, e4, f4, e3]
  congr 1
  have key : ∀ (c : Circuit), c.Fits q1.nqubit → (∀ g ∈ c, ExactGate g) → ∀ φ ψ : St,
      inner q1.nqubit (c.op φ) (c.op ψ) = inner q1.nqubit φ ψ := by
    intro c
    induction c with
    | nil => intro _ _ φ ψ; rfl
    | cons g c ih =>
      intro hf hg φ ψ
      rw [Circuit.op_cons, Module.End.mul_apply, Module.End.mul_apply,
        ih (fun x hx => hf x (by simp [hx])) (fun x hx => hg x (by simp [hx]))]
      exact inner_matOp (hf g (by simp)).1 (hf g (by simp)).2 (hg g (by simp)).unitary φ ψ
  exact key c hf hg _ _

/-- C10: `adjoint()` lists the adjoint gates in reverse order. -/
theorem C10_adjoint_order (c : Circuit) :
    c.adjoint.length = c.length ∧ ∀ k, k < c.length → c.adjoint[k]? = (c[c.length - 1 - k]?).map Gate.adjoint := by
  constructor
  · simp [Circuit.adjoint]
  · intro k hk
    unfold Circuit.adjoint
    rw [List.getElem?_reverse (by simpa using hk), List.getElem?_map, List.length_map]

/-- C10: `apply_circuit(c)` then `apply_circuit(c.adjoint())` restores the coefficient vector, and
`c.adjoint().adjoint()` acts as `c`. -/
theorem C10_adjoint_undoes_partial (q : Computer) (c : Circuit) (hq : q.WF) (hf : c.Fits q.nqubit)
    (ha : ∀ g ∈ c, ApiGate g) (hg : ∀ g ∈ c, ExactGate g) :
    ∃ q1 q2, q.applyCircuit c = .ok q1 ∧ q1.applyCircuit c.adjoint = .ok q2 ∧ q2.coeff = q.coeff ∧
      c.adjoint.adjoint.op = c.op := by
  obtain ⟨q1, e1, e2, e3, e4⟩ := applyCircuit_exact c hq hf hg
  have mem : ∀ g ∈ c.adjoint, ∃ h ∈ c, g = h.adjoint := by
    intro g hg
    simp only [Circuit.adjoint, List.mem_reverse, List.mem_map] at hg
    obtain ⟨h, h1, h2⟩ := hg
    exact ⟨h, h1, h2.symm⟩
  have haa : ∀ g ∈ c.adjoint, ApiGate g := fun g hg => by
    obtain ⟨h, h1, rfl⟩ := mem g hg; exact .adj (ha h h1)
  obtain ⟨q2, f1, f2, f3, f4⟩ := applyCircuit_exact (q := q1) c.adjoint e2
    (fun g hg => by
      obtain ⟨h, h1, rfl⟩ := mem g hg
      rw [(adjoint_target h).1, (adjoint_target h).2, e3]; exact hf h h1)
    (fun g hg' => by
      obtain ⟨h, h1, rfl⟩ := mem g hg'; exact (hg h h1).adjoint (ha h h1))
  refine ⟨q1, q2, e1, f1, ?_, ?_⟩
  · apply vec_ext
    · rw [f2.len, hq.len, f3, e3]
    · show q2.psi = q.psi
      rw [f4, e4]
      have := (circuit_adjoint_op ha).1
      exact congrFun (congrArg DFunLike.coe this) q.psi
  · have h1 := (circuit_adjoint_op ha).1
    have h2 := (circuit_adjoint_op haa).1
    calc c.adjoint.adjoint.op = c.adjoint.adjoint.op * (c.adjoint.op * c.op) := by rw [h1, mul_one]
      _ = c.op := by rw [← mul_assoc, h2, one_mul]

/-- a Bell circuit meets the hypotheses of C08–C10 -/
example : ∃ g h, makeGate "H" 0 0 0 = .ok g ∧ makeGate "cX" 1 0 0 = .ok h ∧
    Circuit.Fits (Computer.init 2).nqubit [g, h] ∧ (∀ x ∈ [g, h], ExactGate x) ∧ (∀ x ∈ [g, h], ApiGate x) := by
  have h1 := makeGate_of_made (.H 0 0)
  have h2 := makeGate_of_made (.cX 1 0 0 (by decide))
  refine ⟨_, _, h1, h2, ?_, ?_, ?_⟩
  · intro x hx
    simp only [List.mem_cons, List.not_mem_nil, or_false] at hx
    rcases hx with rfl | rfl <;> simp [Computer.init]
  · intro x hx
    simp only [List.mem_cons, List.not_mem_nil, or_false] at hx
    rcases hx with rfl | rfl
    · exact (C08_hypotheses_constant_gates h1 rfl).1
    · exact (C08_hypotheses_constant_gates h2 rfl).1
  · intro x hx
    simp only [List.mem_cons, List.not_mem_nil, or_false] at hx
    rcases hx with rfl | rfl
    · exact .make h1
    · exact .make h2

end QF
