import Verif.Lemmas.ApplySafe
import Verif.Lemmas.Adjoint
import Verif.Lemmas.Inner
import Verif.Spec.CircuitOp

namespace QF

theorem eq_of_resolved {m m' : Mat4} (hr : Resolved m)
    (h : ∀ i j, m' i j = m i j ∨ (m' i j = 0 ∧ ‖m i j‖ ≤ thr)) : m' = m := by
  ext i j
  rcases h i j with h | ⟨h, h2⟩
  · exact h
  · rw [h]
    by_contra hne
    have := hr i j (Ne.symm hne)
    unfold thr at h2; linarith

theorem applyGate_ok (q : Computer) (g : Gate) (hq : q.WF)
    (ht : g.target < q.nqubit) (hc : g.control < q.nqubit)
    (hu : MatUnitary g.target g.control g.mat) (hf : FastOK g) :
    ∃ q' m', q.applyGate g = .ok q' ∧ q'.WF ∧ q'.nqubit = q.nqubit ∧ Near m' g.mat ∧
      (∀ i j, m' i j = g.mat i j ∨ (m' i j = 0 ∧ ‖g.mat i j‖ ≤ thr)) ∧
      q'.psi = matOp g.target g.control m' q.psi := by
  unfold Computer.applyGate
  by_cases h : g.target = g.control
  · have h1 : g.nqubits = 1 := by simp [Gate.nqubits, h]
    obtain ⟨q', m', e1, e2, e3, _, _, e4, e5, e6⟩ := apply1_ok q g hq h ht (hf.1 h)
    simp only [h1, if_true, e1, except_ok_bind, show ((1 : ℕ) = 2) = False by simp, if_false, pure, Except.pure]
    exact ⟨q', m', rfl, e2, e3, e4, e5, e6⟩
  · have h1 : g.nqubits = 2 := by simp [Gate.nqubits, h]
    simp only [h1, if_true, except_ok_bind, show ((2 : ℕ) = 1) = False by simp, if_false, pure, Except.pure]
    by_cases hm : ‖g.mat 0 1‖ + ‖g.mat 1 0‖ < thr ∧ g.mat 0 0 = 1 ∧ g.mat 1 1 = 1
    · unfold MatUnitary at hu
      rw [if_neg h] at hu
      obtain ⟨q', m', e1, e2, e3, _, _, e4, e5, e6⟩ := apply2_ctrl_ok q g hq h ht hc (isCtrl_of_unitary hu hm) (hf.2 h)
      exact ⟨q', m', e1, e2, e3, e4, e5, e6⟩
    · obtain ⟨q', e1, e2, e3, _, _, e6⟩ := apply2_case2_ok q g hq h ht hc hm
      exact ⟨q', truncMat g.mat, e1, e2, e3, truncMat_near _, fun i j => trunc_or _, e6⟩

theorem applyGate_exact {q : Computer} {g : Gate} (hq : q.WF)
    (ht : g.target < q.nqubit) (hc : g.control < q.nqubit) (hg : ExactGate g) :
    ∃ q', q.applyGate g = .ok q' ∧ q'.WF ∧ q'.nqubit = q.nqubit ∧ q'.psi = g.op q.psi := by
  obtain ⟨q', m', e1, e2, e3, _, e5, e6⟩ := applyGate_ok q g hq ht hc hg.unitary hg.fast
  have := eq_of_resolved hg.resolved e5
  subst this
  exact ⟨q', e1, e2, e3, e6⟩

theorem applyGateSafe_exact {q : Computer} {g : Gate} (hq : q.WF)
    (ht : g.target < q.nqubit) (hc : g.control < q.nqubit) (hg : Resolved g.mat) :
    ∃ q', q.applyGateSafe g = .ok q' ∧ q'.WF ∧ q'.nqubit = q.nqubit ∧ q'.psi = g.op q.psi := by
  obtain ⟨q', e1, e2, e3, e6⟩ := applyGateSafe_ok q g hq ht hc
  have et : truncMat g.mat = g.mat := eq_of_resolved hg (fun i j => trunc_or (g.mat i j))
  rw [et] at e6
  exact ⟨q', e1, e2, e3, e6⟩

theorem applyCircuit_exact {q : Computer} (c : Circuit) (hq : q.WF) (hc : c.Fits q.nqubit)
    (hg : ∀ g ∈ c, ExactGate g) :
    ∃ q', q.applyCircuit c = .ok q' ∧ q'.WF ∧ q'.nqubit = q.nqubit ∧ q'.psi = c.op q.psi := by
  induction c generalizing q with
  | nil => exact ⟨q, rfl, hq, rfl, rfl⟩
  | cons g c ih =>
    obtain ⟨q1, e1, e2, e3, e4⟩ := applyGate_exact hq (hc g (by simp)).1 (hc g (by simp)).2 (hg g (by simp))
    obtain ⟨q2, f1, f2, f3, f4⟩ := ih e2 (fun h hh => by rw [e3]; exact hc h (by simp [hh]))
      (fun h hh => hg h (by simp [hh]))
    refine ⟨q2, ?_, f2, by rw [f3, e3], ?_⟩
    · unfold Computer.applyCircuit at f1 ⊢
      rw [List.foldlM_cons, e1, except_ok_bind, f1]
    · rw [f4, e4]; rfl

theorem applyCircuitSafe_exact {q : Computer} (c : Circuit) (hq : q.WF) (hc : c.Fits q.nqubit)
    (hg : ∀ g ∈ c, Resolved g.mat) :
    ∃ q', q.applyCircuitSafe c = .ok q' ∧ q'.WF ∧ q'.nqubit = q.nqubit ∧ q'.psi = c.op q.psi := by
  induction c generalizing q with
  | nil => exact ⟨q, rfl, hq, rfl, rfl⟩
  | cons g c ih =>
    obtain ⟨q1, e1, e2, e3, e4⟩ := applyGateSafe_exact hq (hc g (by simp)).1 (hc g (by simp)).2 (hg g (by simp))
    obtain ⟨q2, f1, f2, f3, f4⟩ := ih e2 (fun h hh => by rw [e3]; exact hc h (by simp [hh]))
      (fun h hh => hg h (by simp [hh]))
    refine ⟨q2, ?_, f2, by rw [f3, e3], ?_⟩
    · unfold Computer.applyCircuitSafe at f1 ⊢
      rw [List.foldlM_cons, e1, except_ok_bind, f1]
    · rw [f4, e4]; rfl

theorem Computer.WF.init (n : ℕ) : (Computer.init n).WF :=
  ⟨rfl, by simp [Computer.init], rfl⟩

/-! ### inner products -/

theorem innerProd_eq (acc : ℂ) (l r : List ℂ) (h : l.length ≤ r.length) :
    innerProd acc l r = .ok (acc + ∑ I ∈ Finset.range l.length, (starRingEnd ℂ) (vec l I) * vec r I) := by
  induction l generalizing acc r with
  | nil => simp [innerProd]
  | cons a l ih =>
    cases r with
    | nil => simp at h
    | cons b r =>
      rw [innerProd, ih _ _ (by simpa using h), List.length_cons, Finset.sum_range_succ']
      simp only [vec, List.getD_cons_succ, List.getD_cons_zero]
      congr 1
      ring

theorem dot_eq {q1 q2 : Computer} (h1 : q1.WF) (h2 : q2.WF) (h : q1.nqubit = q2.nqubit) :
    q1.dot q2 = .ok (inner q1.nqubit q1.psi q2.psi) := by
  unfold Computer.dot
  rw [innerProd_eq _ _ _ (by rw [h1.len, h2.len, h]), h1.len, zero_add]
  rfl

/-! ### adjoints -/

theorem ExactGate.adjoint {g : Gate} (ha : ApiGate g) (h : ExactGate g) : ExactGate g.adjoint := by
  have hm := api_adjoint_mat ha.any
  have ht := adjoint_target g
  have ns : ∀ a b c d : ℂ, NoSwapBug a b c d →
      NoSwapBug ((starRingEnd ℂ) a) ((starRingEnd ℂ) c) ((starRingEnd ℂ) b) ((starRingEnd ℂ) d) := by
    intro a b c d hn h1 h2
    have h2' : b = c := by
      have := congrArg (starRingEnd ℂ) h2
      simpa using this.symm
    have := hn (by simpa using h1) h2'
    rw [← h2', this]; simp
  refine ⟨?_, ⟨?_, ?_⟩, ?_⟩
  · rw [hm, ht.1, ht.2]; exact h.unitary.conjTranspose
  · intro he
    rw [ht.1, ht.2] at he
    rw [hm]; exact ns _ _ _ _ (h.fast.1 he)
  · intro he
    rw [ht.1, ht.2] at he
    rw [hm]; exact ns _ _ _ _ (h.fast.2 he)
  · intro i j hij
    rw [hm, Matrix.conjTranspose_apply] at hij ⊢
    rw [norm_star]
    exact h.resolved j i (by simpa using hij)

theorem circuit_adjoint_op {c : Circuit} (h : ∀ g ∈ c, ApiGate g) :
    c.adjoint.op * c.op = 1 ∧ c.op * c.adjoint.op = 1 := by
  induction c with
  | nil => simp [Circuit.adjoint]
  | cons g c ih =>
    obtain ⟨i1, i2⟩ := ih (fun x hx => h x (by simp [hx]))
    obtain ⟨g1, g2⟩ := api_adjoint_op (h g (by simp))
    have e : Circuit.adjoint (g :: c) = Circuit.adjoint c ++ [g.adjoint] := by simp [Circuit.adjoint]
    rw [e, Circuit.op_append]
    simp only [Circuit.op_cons, Circuit.op_nil, one_mul]
    constructor
    · rw [mul_assoc, ← mul_assoc _ (Circuit.op c), i1, one_mul, g1]
    · rw [mul_assoc, ← mul_assoc g.op, g2, one_mul, i2]

end QF
