import Verif.Lemmas.ApplyErr
import Verif.Props.QubitOperator

/-!
Properties C08–C10, C24 for every circuit of gates made by the API at every angle, with explicit error bounds for
what the 1e-16 threshold drops.  The only hypothesis left is `FastOK`: no gate falls into the mis-parsed comparison
`op_0_1 == op_1_0 == 1.0` (`Rx` at odd multiples of π, C06_swap_branch, C08_rx_pi_differs).
-/
namespace QF

/-- C08: `apply_circuit` computes the product of the gate operators up to a relative error `(1+4e-16)^k - 1`
in Euclidean norm, for every circuit of API gates at any angle. -/
theorem C08_apply_circuit_error (q : Computer) (c : Circuit) (hq : q.WF) (hf : c.Fits q.nqubit) (ha : ∀ g ∈ c, ApiGate g)
    (hx : ∀ g ∈ c, FastOK g) :
    ∃ q', q.applyCircuit c = .ok q' ∧ q'.WF ∧ q'.nqubit = q.nqubit ∧
      nrm q.nqubit (q'.psi - c.op q.psi) ≤ ((1 + 4e-16) ^ c.length - 1) * nrm q.nqubit q.psi :=
  applyCircuit_near c hq hf ha hx

/-- C08: the same for `apply_circuit_safe`, with no exception for `Rx`. -/
theorem C08_apply_circuit_safe_error (q : Computer) (c : Circuit) (hq : q.WF) (hf : c.Fits q.nqubit) (ha : ∀ g ∈ c, ApiGate g) :
    ∃ q', q.applyCircuitSafe c = .ok q' ∧ q'.WF ∧ q'.nqubit = q.nqubit ∧
      nrm q.nqubit (q'.psi - c.op q.psi) ≤ ((1 + 4e-16) ^ c.length - 1) * nrm q.nqubit q.psi :=
  applyCircuitSafe_near c hq hf ha

/-- C08: fast and safe application of any circuit of API gates (outside the mis-parsed branch) leave states within
`2((1+4e-16)^k - 1)‖ψ‖` of each other. -/
theorem C08_fast_vs_safe_partial (q : Computer) (c : Circuit) (hq : q.WF) (hf : c.Fits q.nqubit) (ha : ∀ g ∈ c, ApiGate g)
    (hx : ∀ g ∈ c, FastOK g) :
    ∃ q1 q2, q.applyCircuit c = .ok q1 ∧ q.applyCircuitSafe c = .ok q2 ∧
      nrm q.nqubit (q1.psi - q2.psi) ≤ 2 * ((1 + 4e-16) ^ c.length - 1) * nrm q.nqubit q.psi := by
  obtain ⟨q1, e1, _, _, e4⟩ := C08_apply_circuit_error q c hq hf ha hx
  obtain ⟨q2, f1, _, _, f4⟩ := C08_apply_circuit_safe_error q c hq hf ha
  refine ⟨q1, q2, e1, f1, ?_⟩
  rw [show q1.psi - q2.psi = (q1.psi - c.op q.psi) - (q2.psi - c.op q.psi) by abel]
  refine le_trans (nrm_sub_le _ _ _) ?_
  linarith

/-- C08: `FastOK` holds for every gate of `qforte.gate` and adjoints of such, except `Rx` with `|cos(θ/2)| ≤ 1e-16` -/
theorem C08_fastok_api {ty : String} {t c : ℕ} {θ : ℝ} {g : Gate} (h : makeGate ty t c θ = .ok g)
    (hx : ty = "Rx" → 1e-16 < |Real.cos (θ / 2)|) : FastOK g ∧ FastOK g.adjoint :=
  ⟨C06_hypothesis_named_gates h hx, (C06_hypothesis_named_gates h hx).adjoint (.make h)⟩

/-- C09: running the same circuit of API gates on two computers changes their inner product by at most
`e(2+e)‖φ‖‖ψ‖` with `e = (1+4e-16)^k - 1`. -/
theorem C09_inner_product_error_partial (q1 q2 : Computer) (c : Circuit) (h1 : q1.WF) (h2 : q2.WF) (hn : q1.nqubit = q2.nqubit)
    (hf : c.Fits q1.nqubit) (ha : ∀ g ∈ c, ApiGate g) (hx : ∀ g ∈ c, FastOK g) :
    ∃ r1 r2 z w, q1.applyCircuit c = .ok r1 ∧ q2.applyCircuit c = .ok r2 ∧ r1.dot r2 = .ok z ∧ q1.dot q2 = .ok w ∧
      ‖z - w‖ ≤ ((1 + 4e-16) ^ c.length - 1) * (2 + ((1 + 4e-16) ^ c.length - 1)) * (nrm q1.nqubit q1.psi * nrm q1.nqubit q2.psi) := by
  obtain ⟨r1, e1, e2, e3, e4⟩ := applyCircuit_near c h1 hf ha hx
  obtain ⟨r2, f1, f2, f3, f4⟩ := applyCircuit_near c h2 (hn ▸ hf) ha hx
  refine ⟨r1, r2, _, _, e1, f1, dot_eq e2 f2 (by rw [e3, f3, hn]), dot_eq h1 h2 hn, ?_⟩
  rw [← hn] at f4
  rw [e3]
  have hu := fun g hg => api_unitary (ha g hg)
  rw [← inner_circuit hf hu q1.psi q2.psi]
  have s1 := nrm_circuit hf hu q1.psi
  have s2 := nrm_circuit hf hu q2.psi
  have e0 := runErr_nonneg c.length
  have n1 := nrm_nonneg q1.nqubit q1.psi
  have n2 := nrm_nonneg q1.nqubit q2.psi
  show _ ≤ runErr c.length * (2 + runErr c.length) * _
  generalize runErr c.length = e at *
  generalize c.op q1.psi = u at *
  generalize c.op q2.psi = v at *
  have split : inner q1.nqubit r1.psi r2.psi - inner q1.nqubit u v =
      inner q1.nqubit (r1.psi - u) (r2.psi - v) + inner q1.nqubit (r1.psi - u) v + inner q1.nqubit u (r2.psi - v) := by
    rw [inner_sub_left, inner_sub_left, inner_sub_right, inner_sub_right]; ring
  rw [split]
  refine le_trans (norm_add₃_le) ?_
  have b1 := le_trans (inner_le q1.nqubit (r1.psi - u) (r2.psi - v)) (mul_le_mul e4 f4 (nrm_nonneg _ _) (by positivity))
  have b2 := le_trans (inner_le q1.nqubit (r1.psi - u) v) (mul_le_mul_of_nonneg_right e4 (nrm_nonneg _ _))
  have b3 := le_trans (inner_le q1.nqubit u (r2.psi - v)) (mul_le_mul_of_nonneg_left f4 (nrm_nonneg _ _))
  rw [s2] at b2
  rw [s1] at b3
  nlinarith

/-- C10: running a circuit of API gates and then its adjoint returns to within `((1+4e-16)^{2k} - 1)‖ψ‖` of the
initial state. -/
theorem C10_adjoint_undoes_error_partial (q : Computer) (c : Circuit) (hq : q.WF) (hf : c.Fits q.nqubit)
    (ha : ∀ g ∈ c, ApiGate g) (hx : ∀ g ∈ c, FastOK g) :
    ∃ q1 q2, q.applyCircuit c = .ok q1 ∧ q1.applyCircuit c.adjoint = .ok q2 ∧
      nrm q.nqubit (q2.psi - q.psi) ≤ ((1 + 4e-16) ^ (2 * c.length) - 1) * nrm q.nqubit q.psi := by
  have mem : ∀ g ∈ c.adjoint, ∃ h ∈ c, g = h.adjoint := by
    intro g hg
    simp only [Circuit.adjoint, List.mem_reverse, List.mem_map] at hg
    obtain ⟨h, h1, h2⟩ := hg
    exact ⟨h, h1, h2.symm⟩
  obtain ⟨q1, e1, e2, e3, _⟩ := applyCircuit_near c hq hf ha hx
  obtain ⟨q2, f1, f2, f3, f4⟩ := applyCircuit_near (q := q) (c ++ c.adjoint) hq (by
    intro g hg
    rcases List.mem_append.1 hg with h | h
    · exact hf g h
    · obtain ⟨h', h1, rfl⟩ := mem g h
      rw [(adjoint_target h').1, (adjoint_target h').2]; exact hf h' h1) (by
    intro g hg
    rcases List.mem_append.1 hg with h | h
    · exact ha g h
    · obtain ⟨h', h1, rfl⟩ := mem g h; exact .adj (ha h' h1)) (by
    intro g hg
    rcases List.mem_append.1 hg with h | h
    · exact hx g h
    · obtain ⟨h', h1, rfl⟩ := mem g h; exact (hx h' h1).adjoint (ha h' h1))
  have run : q1.applyCircuit c.adjoint = .ok q2 := by
    unfold Computer.applyCircuit at e1 f1 ⊢
    rw [List.foldlM_append, e1] at f1
    exact f1
  refine ⟨q1, q2, e1, run, ?_⟩
  rw [Circuit.op_append, (circuit_adjoint_op ha).1] at f4
  have hl : (c ++ c.adjoint).length = 2 * c.length := by
    rw [List.length_append]; unfold Circuit.adjoint; rw [List.length_reverse, List.length_map]; ring
  rw [hl] at f4
  exact f4

/-- C24: `apply_operator` for operators of API gates at any angle: `Σ_k z_k (circuit k)` applied to the state up to
`Σ_k |z_k| ((1+4e-16)^{len k} - 1) ‖ψ‖`. -/
theorem C24_apply_operator_error (q : Computer) (A : QubitOperator) (hq : q.WF)
    (hA : ∀ t ∈ A, t.2.Fits q.nqubit ∧ ∀ g ∈ t.2, ApiGate g ∧ FastOK g) :
    ∃ q', q.applyOperator A = .ok q' ∧ q'.WF ∧ q'.nqubit = q.nqubit ∧
      nrm q.nqubit (q'.psi - A.op q.psi) ≤ (A.map fun t => ‖t.1‖ * ((1 + 4e-16) ^ t.2.length - 1)).sum * nrm q.nqubit q.psi := by
  have loop : ∀ (A : QubitOperator) (s : Computer) (res : List ℂ), s.WF → s.nqubit = q.nqubit → s.coeff = q.coeff → res.length = 2 ^ q.nqubit →
      (∀ t ∈ A, t.2.Fits q.nqubit ∧ ∀ g ∈ t.2, ApiGate g ∧ FastOK g) →
      ∃ s' r, A.foldlM (fun (s : Computer × List ℂ) t => (do
        let q1 ← s.1.applyCircuit t.2
        let q2 := q1.applyConstant t.1
        let r ← addVec s.2 q2.coeff
        pure ({ q2 with coeff := q.coeff }, r) : Except Exc (Computer × List ℂ))) (s, res) = .ok (s', r) ∧ s'.WF ∧ s'.nqubit = q.nqubit ∧
        r.length = 2 ^ q.nqubit ∧
        nrm q.nqubit (vec r - (vec res + A.op q.psi)) ≤ (A.map fun t => ‖t.1‖ * ((1 + 4e-16) ^ t.2.length - 1)).sum * nrm q.nqubit q.psi := by
    intro A
    induction A with
    | nil => intro s res hs hn _ hl _; exact ⟨s, res, rfl, hs, hn, hl, by simp [QubitOperator.op, nrm_zero]⟩
    | cons t A ih =>
      intro s res hs hn hc hl hA
      obtain ⟨hf, hg⟩ := hA t (by simp)
      have hpsi : s.psi = q.psi := by unfold Computer.psi; rw [hc]
      obtain ⟨q1, e1, e2, e3, e4⟩ := applyCircuit_near (q := s) t.2 hs (by rw [hn]; exact hf) (fun g h => (hg g h).1) (fun g h => (hg g h).2)
      have hl1 : (q1.applyConstant t.1).coeff.length = 2 ^ q.nqubit := by
        show (q1.coeff.map _).length = _
        rw [List.length_map, e2.len, e3, hn]
      obtain ⟨r, a1, a2, a3⟩ := addVec_ok (r := res) (c := (q1.applyConstant t.1).coeff) (by rw [hl, hl1])
      obtain ⟨s', r', f1, f2, f3, f4, f5⟩ := ih { q1.applyConstant t.1 with coeff := q.coeff } r
        ⟨e2.nbasis, by show q.coeff.length = 2 ^ q1.nqubit; rw [hq.len, e3, hn], e2.new⟩ (by show q1.nqubit = _; rw [e3, hn]) rfl (by rw [a2, hl])
        (fun t ht => hA t (by simp [ht]))
      refine ⟨s', r', ?_, f2, f3, f4, ?_⟩
      · rw [List.foldlM_cons]
        simp only [e1, except_ok_bind, a1, pure, Except.pure] at f1 ⊢
        exact f1
      · rw [hn, hpsi] at e4
        have hv : nrm q.nqubit (vec r - (vec res + t.1 • t.2.op q.psi)) ≤ ‖t.1‖ * (runErr t.2.length * nrm q.nqubit q.psi) := by
          rw [nrm_congr' (φ := vec r - (vec res + t.1 • t.2.op q.psi)) (ψ := t.1 • (q1.psi - t.2.op q.psi)), nrm_smul]
          · exact mul_le_mul_of_nonneg_left e4 (norm_nonneg _)
          · intro I hI
            have h1 := a3 I (by rw [hl]; exact hI)
            have h2 : vec (q1.applyConstant t.1).coeff = t.1 • q1.psi := vec_map_mul _ _
            rw [h2] at h1
            simp only [Pi.sub_apply, Pi.add_apply, Pi.smul_apply, h1, smul_sub]
            ring
        have split : vec r' - (vec res + QubitOperator.op (t :: A) q.psi) =
            (vec r' - (vec r + QubitOperator.op A q.psi)) + (vec r - (vec res + t.1 • t.2.op q.psi)) := by
          rw [QubitOperator.op_cons, LinearMap.add_apply, LinearMap.smul_apply]; abel
        rw [split, List.map_cons, List.sum_cons]
        refine le_trans (nrm_add_le _ _ _) ?_
        unfold runErr at hv
        linarith
  obtain ⟨s', r, e1, e2, e3, e4, e5⟩ := loop A q (List.replicate q.nbasis 0) hq rfl rfl (by rw [List.length_replicate, hq.nbasis]) hA
  refine ⟨{ s' with coeff := r }, ?_, ⟨e2.nbasis, by show r.length = 2 ^ s'.nqubit; rw [e4, e3], e2.new⟩, e3, ?_⟩
  · unfold Computer.applyOperator
    simp only [e1]; rfl
  · show nrm q.nqubit (vec r - _) ≤ _
    rw [vec_replicate_zero, zero_add] at e5
    exact e5

/-- the hypotheses are met with rotations at arbitrary angles -/
example (θ : ℝ) : ∃ g h, makeGate "Ry" 0 0 θ = .ok g ∧ makeGate "cRz" 1 0 θ = .ok h ∧
    Circuit.Fits (Computer.init 2).nqubit [g, h] ∧ (∀ x ∈ [g, h], ApiGate x) ∧ (∀ x ∈ [g, h], FastOK x) := by
  have h1 := makeGate_of_made (.Ry 0 θ)
  have h2 := makeGate_of_made (.cRz 1 0 θ (by decide))
  refine ⟨_, _, h1, h2, ?_, ?_, ?_⟩
  · intro x hx
    simp only [List.mem_cons, List.not_mem_nil, or_false] at hx
    rcases hx with rfl | rfl <;> simp [Computer.init]
  · intro x hx
    simp only [List.mem_cons, List.not_mem_nil, or_false] at hx
    rcases hx with rfl | rfl
    · exact .make h1
    · exact .make h2
  · intro x hx
    simp only [List.mem_cons, List.not_mem_nil, or_false] at hx
    rcases hx with rfl | rfl
    · exact C06_hypothesis_named_gates h1 (fun h => absurd h (by decide))
    · exact C06_hypothesis_named_gates h2 (fun h => absurd h (by decide))

end QF
