import Verif.Lemmas.Commute
import Verif.Lemmas.Kernel

/-! Soundness of `evaluate_gate_interaction`. -/
namespace QF

theorem isPhase1_diag {a : GateType} (h : isPhase1 a = true) : isDiag1 a = true := by
  revert h; cases a <;> decide

theorem ctrlTo1_ok {a x : GateType} (h : ctrlTo1 a = .ok x) : a ≠ .SWAP ∧ a ≠ .A ∧ a ≠ .Undefined := by
  revert h; cases a <;> simp [ctrlTo1]

theorem isSym2_cases {a : GateType} (h : isSym2 a = true) : a = .cZ ∨ a = .cR ∨ a = .SWAP := by
  revert h; cases a <;> decide

/-- the qubits of two gates are disjoint -/
def Disj (g1 g2 : Gate) : Prop :=
  g1.target ≠ g2.target ∧ g1.target ≠ g2.control ∧ g1.control ≠ g2.target ∧ g1.control ≠ g2.control

theorem disj_of_common {g1 g2 : Gate} (h : (g1.qubitSet.filter (· ∈ g2.qubitSet)).length = 0) : Disj g1 g2 := by
  have h' : ∀ k ∈ g1.qubitSet, k ∉ g2.qubitSet := by
    have := List.length_eq_zero_iff.1 h
    rw [List.filter_eq_nil_iff] at this
    intro k hk; simpa using this k hk
  unfold Gate.qubitSet at h'
  unfold Disj
  split_ifs at h' with h1 h2 h2
  · have := h' g1.target (by simp); simp at this; refine ⟨this, ?_, ?_, ?_⟩ <;> omega
  · have := h' g1.target (by simp); simp at this; rw [← h1]; exact ⟨this.1, this.2, this⟩
  · have := h' g1.target (by simp); have h4 := h' g1.control (by simp); simp at this h4; rw [← h2]; exact ⟨this, this, h4, h4⟩
  · have := h' g1.target (by simp); have h4 := h' g1.control (by simp); simp at this h4; exact ⟨this.1, this.2, h4⟩

theorem ev_disj {g1 g2 : Gate} (h : (g1.qubitSet.filter (· ∈ g2.qubitSet)).length = 0) :
    evaluateGateInteraction g1 g2 = .ok (true, 0) := by
  unfold evaluateGateInteraction; simp only [h, if_true]

theorem op_comm_disj {g1 g2 : Gate} (h : Disj g1 g2) : Commute g1.op g2.op :=
  matOp_comm_disjoint _ _ h.1 h.2.1 h.2.2.1 h.2.2.2

/-- one-qubit gates on the same qubit -/
theorem ev11 {g1 g2 : Gate} (h1 : g1.target = g1.control) (h2 : g2.target = g2.control)
    (h : g1.target = g2.target) : evaluateGateInteraction g1 g2 =
      if (isPhase1 g1.type && isPhase1 g2.type) = true then
        if g1.type = g2.type then .ok (true, 1) else .ok (true, 3)
      else .ok (pairCommute g1.type g2.type,
        (if g1.type = g2.type then 1 else 0) + 4 * (if isVadjV g1.type g2.type then 1 else 0)) := by
  unfold evaluateGateInteraction
  have h' : g1.control = g2.control := by omega
  simp [Gate.qubitSet, h1, h2, h']

/-- a one-qubit gate and a two-qubit gate sharing a qubit -/
theorem ev12 {g1 g2 : Gate} (h1 : g1.target = g1.control) (h2 : g2.target ≠ g2.control)
    (h : g1.target = g2.target ∨ g1.target = g2.control) : evaluateGateInteraction g1 g2 =
      if g1.type = .SWAP ∨ g2.type = .SWAP ∨ g1.type = .A ∨ g2.type = .A then .ok (false, 0)
      else if g1.target = g2.target then do
        let x ← ctrlTo1 g2.type
        pure (pairCommute g1.type x, 0)
      else .ok (isDiag1 g1.type, 0) := by
  unfold evaluateGateInteraction
  simp [Gate.qubitSet, ← h1, h2, h]

theorem ev21 {g1 g2 : Gate} (h1 : g1.target ≠ g1.control) (h2 : g2.target = g2.control)
    (h : g1.target = g2.target ∨ g1.control = g2.target) : evaluateGateInteraction g1 g2 =
      if g1.type = .SWAP ∨ g2.type = .SWAP ∨ g1.type = .A ∨ g2.type = .A then .ok (false, 0)
      else if g2.target = g1.target then do
        let x ← ctrlTo1 g1.type
        pure (pairCommute g2.type x, 0)
      else .ok (isDiag1 g2.type, 0) := by
  have hl : ([g1.target, g1.control].filter (· ∈ [g2.target])).length = 1 := by
    rcases h with h | h
    · rw [List.filter_cons_of_pos (by simp [h]), List.filter_cons_of_neg (by simp [← h]; exact fun e => h1 e.symm)]; rfl
    · rw [List.filter_cons_of_neg (by simp [← h]; exact h1), List.filter_cons_of_pos (by simp [h])]; rfl
  unfold evaluateGateInteraction
  simp only [Gate.qubitSet, ← h2, h1, if_true, if_false, hl]
  simp

/-- two-qubit gates sharing exactly one qubit -/
theorem ev22_1 {g1 g2 : Gate} (h1 : g1.target ≠ g1.control) (h2 : g2.target ≠ g2.control)
    (hc : (g1.qubitSet.filter (· ∈ g2.qubitSet)).length = 1) : evaluateGateInteraction g1 g2 =
      if g1.type = .SWAP ∨ g2.type = .SWAP ∨ g1.type = .A ∨ g2.type = .A then .ok (false, 0)
        else if g1.control = g2.control then .ok (true, 0)
        else if g1.target = g2.target then do
          let x ← ctrlTo1 g1.type
          let y ← ctrlTo1 g2.type
          pure (pairCommute x y, 0)
        else if g1.target = g2.control then do
          let x ← ctrlTo1 g1.type
          pure (isDiag1 x, 0)
        else (do
          let x ← ctrlTo1 g2.type
          pure (isDiag1 x, 0)) := by
  have l1 : g1.qubitSet.length = 2 := by simp [Gate.qubitSet, h1]
  have l2 : g2.qubitSet.length = 2 := by simp [Gate.qubitSet, h2]
  unfold evaluateGateInteraction
  simp only [l1, l2, hc]
  simp

theorem ev22_2 {g1 g2 : Gate} (h1 : g1.target ≠ g1.control) (h2 : g2.target ≠ g2.control)
    (hc : (g1.qubitSet.filter (· ∈ g2.qubitSet)).length = 2) : evaluateGateInteraction g1 g2 =
      if (isSym2 g1.type && isSym2 g2.type) = true then .ok (true, 2 * (if g1.type = g2.type then 1 else 0))
        else if g1.type = .SWAP ∨ g2.type = .SWAP then .ok (false, 0)
        else if g1.type = .A ∨ g2.type = .A then
          if (isSym2 g1.type || isSym2 g2.type) = true then .ok (true, 0) else .ok (false, 0)
        else if g1.target = g2.target then do
          let x ← ctrlTo1 g1.type
          let y ← ctrlTo1 g2.type
          pure (pairCommute x y, (if g1.type = g2.type then 1 else 0) + 4 * (if isVadjV x y then 1 else 0))
        else (do
          let x ← ctrlTo1 g1.type
          if isDiag1 x = true then do
            let y ← ctrlTo1 g2.type
            pure (isDiag1 y, 0)
          else pure (false, 0)) := by
  have l1 : g1.qubitSet.length = 2 := by simp [Gate.qubitSet, h1]
  have l2 : g2.qubitSet.length = 2 := by simp [Gate.qubitSet, h2]
  unfold evaluateGateInteraction
  simp only [l1, l2, hc]
  simp

/-- the shared qubits of two two-qubit gates -/
theorem common22 {g1 g2 : Gate} (h1 : g1.target ≠ g1.control) (h2 : g2.target ≠ g2.control) :
    (g1.qubitSet.filter (· ∈ g2.qubitSet)).length = 0 ∨
    ((g1.qubitSet.filter (· ∈ g2.qubitSet)).length = 1 ∧
      ((g1.control = g2.control ∧ g1.target ≠ g2.target ∧ g1.target ≠ g2.control ∧ g1.control ≠ g2.target) ∨
       (g1.target = g2.target ∧ g1.control ≠ g2.control ∧ g1.target ≠ g2.control ∧ g1.control ≠ g2.target) ∨
       (g1.target = g2.control ∧ g1.control ≠ g2.target ∧ g1.control ≠ g2.control ∧ g1.target ≠ g2.target) ∨
       (g1.control = g2.target ∧ g1.target ≠ g2.control ∧ g1.control ≠ g2.control ∧ g1.target ≠ g2.target))) ∨
    ((g1.qubitSet.filter (· ∈ g2.qubitSet)).length = 2 ∧
      ((g1.target = g2.target ∧ g1.control = g2.control) ∨ (g1.target = g2.control ∧ g1.control = g2.target))) := by
  have e : g1.qubitSet = [g1.target, g1.control] := by simp [Gate.qubitSet, h1]
  have e2 : g2.qubitSet = [g2.target, g2.control] := by simp [Gate.qubitSet, h2]
  rw [e, e2]
  simp only [List.filter_cons, List.filter_nil, List.mem_cons, List.not_mem_nil, or_false]
  by_cases a : g1.target = g2.target <;> by_cases b : g1.target = g2.control <;>
    by_cases c : g1.control = g2.target <;> by_cases d : g1.control = g2.control <;>
    simp [a, b, c, d] <;> omega

end QF

namespace QF

theorem Sem.of_one {g : Gate} (s : Sem g) (h : g.target = g.control) :
    (∀ x, ctrlTo1 g.type ≠ .ok x) ∧ g.type ≠ .SWAP ∧ g.type ≠ .A ∧
    g.op = op1 g.target (typeM g.type (g.parameter.getD 0)) ∧
    (isParametrized g.type = true → ∃ p, g.parameter = some p) ∧
    (isParametrized g.type = false → g.parameter = none) := by
  cases s with
  | one _ a b c d e f => exact ⟨a, b, c, d, e, f⟩
  | A h' => exact absurd h h'
  | SWAP h' => exact absurd h h'
  | ctrl _ h' => exact absurd h h'
  | cu h' => exact absurd h h'

/-- two-qubit gates that are neither A nor SWAP are controlled one-qubit operators -/
theorem Sem.of_ctrl {g : Gate} (s : Sem g) (h : g.target ≠ g.control) (hA : g.type ≠ .A) (hS : g.type ≠ .SWAP) :
    ∃ b m, g.op = ctrlOp g.control b (op1 g.target m) ∧
      ∀ x, ctrlTo1 g.type = .ok x → b = decide (g.type ≠ .acX) ∧ m = typeM x (g.parameter.getD 0) ∧
        (isParametrized g.type = true → ∃ p, g.parameter = some p) := by
  cases s with
  | one h' => exact absurd h' h
  | A _ h' => exact absurd h' hA
  | SWAP _ h' => exact absurd h' hS
  | ctrl x _ hx hop hp =>
    refine ⟨_, _, hop, ?_⟩
    intro y hy; rw [hx] at hy; cases hy; exact ⟨rfl, rfl, hp⟩
  | cu _ ht m hop =>
    refine ⟨_, _, hop, ?_⟩
    intro y hy; rw [ht] at hy; cases hy

theorem Sem.of_sym {g : Gate} (s : Sem g) (h : g.target ≠ g.control) (hs : isSym2 g.type = true) :
    (g.type = .SWAP ∧ g.op = swapOp g.target g.control) ∨
    (g.type = .cZ ∧ g.op = phase11 g.target g.control (-1)) ∨
    (g.type = .cR ∧ ∃ p, g.parameter = some p ∧ g.op = phase11 g.target g.control (Complex.exp (Complex.I * p))) := by
  cases s with
  | one h' => exact absurd h' h
  | A _ h' => rw [h'] at hs; exact absurd hs (by decide)
  | SWAP _ h' hop => exact .inl ⟨h', hop⟩
  | ctrl x _ hx hop hp =>
    rcases isSym2_cases hs with e | e | e
    · rw [e] at hx hop; cases hx
      exact .inr (.inl ⟨e, hop⟩)
    · rw [e] at hx hop hp; cases hx
      obtain ⟨p, hp⟩ := hp (by decide)
      rw [hp] at hop
      exact .inr (.inr ⟨e, p, hp, hop⟩)
    · rw [e] at hx; cases hx
  | cu _ h' => rw [h'] at hs; exact absurd hs (by decide)

theorem phase_or_swap_comm {t c : ℕ} (h : t ≠ c) {A B : Op} (hA : A = swapOp t c ∨ ∃ w, A = phase11 t c w)
    (hB : B = swapOp t c ∨ ∃ w, B = phase11 t c w) : Commute A B := by
  rcases hA with rfl | ⟨w, rfl⟩ <;> rcases hB with rfl | ⟨w', rfl⟩
  · exact Commute.refl _
  · exact (phase11_swap h _).symm
  · exact phase11_swap h _
  · exact phase11_comm _ _ _ _

theorem Sem.of_sym' {g : Gate} (s : Sem g) (h : g.target ≠ g.control) (hs : isSym2 g.type = true) {t c : ℕ}
    (he : (g.target = t ∧ g.control = c) ∨ (g.target = c ∧ g.control = t)) :
    g.op = swapOp t c ∨ ∃ w, g.op = phase11 t c w := by
  have := s.of_sym h hs
  rcases he with ⟨rfl, rfl⟩ | ⟨rfl, rfl⟩
  · rcases this with h | h | ⟨_, p, _, h⟩
    · exact .inl h.2
    · exact .inr ⟨_, h.2⟩
    · exact .inr ⟨_, h⟩
  · rcases this with h | h | ⟨_, p, _, h⟩
    · exact .inl (h.2.trans (swapOp_symm _ _))
    · exact .inr ⟨_, h.2.trans (phase11_symm _ _ _)⟩
    · exact .inr ⟨_, h.trans (phase11_symm _ _ _)⟩

theorem A_sym_comm {g1 g2 : Gate} (s1 : Sem g1) (s2 : Sem g2) (h1 : g1.target ≠ g1.control)
    (h2 : g2.target ≠ g2.control) (hA : g1.type = .A) (hs : isSym2 g2.type = true) (hS : g2.type ≠ .SWAP)
    (he : (g1.target = g2.target ∧ g1.control = g2.control) ∨ (g1.target = g2.control ∧ g1.control = g2.target)) :
    Commute g1.op g2.op := by
  have e1 : g1.op = aOp g1.target g1.control (g1.parameter.getD 0) := by
    cases s1 with
    | one h' => exact absurd h' h1
    | A _ _ h => exact h
    | SWAP _ h' => rw [h'] at hA; cases hA
    | ctrl x _ hx => rw [hA] at hx; cases hx
    | cu _ h' => rw [h'] at hA; cases hA
  have e2 : ∃ w, g2.op = phase11 g1.target g1.control w := by
    rcases s2.of_sym h2 hs with h | h | ⟨_, p, _, h⟩
    · exact absurd h.1 hS
    · refine ⟨-1, ?_⟩
      rcases he with ⟨a, b⟩ | ⟨a, b⟩
      · rw [a, b]; exact h.2
      · rw [a, b, phase11_symm]; exact h.2
    · refine ⟨Complex.exp (Complex.I * p), ?_⟩
      rcases he with ⟨a, b⟩ | ⟨a, b⟩
      · rw [a, b]; exact h
      · rw [a, b, phase11_symm]; exact h
  obtain ⟨w, e2⟩ := e2
  rw [e1, e2]
  exact (phase11_aOp h1 w _).symm

theorem pairCommute_symm (a b : GateType) : pairCommute a b = pairCommute b a := by
  unfold pairCommute; exact decide_eq_decide.2 or_comm

theorem one_ctrl_comm {g1 g2 : Gate} (s1 : Sem g1) (s2 : Sem g2) (h1 : g1.target = g1.control)
    (h2 : g2.target ≠ g2.control)
    (hn : ¬ (g1.type = .SWAP ∨ g2.type = .SWAP ∨ g1.type = .A ∨ g2.type = .A)) {k : ℕ}
    (hev : (if g1.target = g2.target then (do
        let x ← ctrlTo1 g2.type
        pure (pairCommute g1.type x, 0))
      else .ok (isDiag1 g1.type, 0) : Except Exc (Bool × ℕ)) = .ok (true, k)) : Commute g1.op g2.op := by
  push Not at hn
  obtain ⟨_, _, _, e1, _⟩ := s1.of_one h1
  obtain ⟨b, m, e2, hx⟩ := s2.of_ctrl h2 hn.2.2.2 hn.2.1
  rw [e1, e2]
  by_cases ht : g1.target = g2.target
  · rw [if_pos ht] at hev
    rcases hc : ctrlTo1 g2.type with e | x
    · rw [hc] at hev; cases hev
    · rw [hc, except_ok_bind] at hev
      obtain ⟨rfl, rfl, _⟩ := hx x hc
      simp only [pure, Except.pure, Except.ok.injEq, Prod.mk.injEq] at hev
      refine op1_ctrl_comm _ (fun e => ?_) (fun _ => pair_comm hev.1 _ _)
      exact absurd (ht.symm.trans e) h2
  · rw [if_neg ht] at hev
    simp only [Except.ok.injEq, Prod.mk.injEq] at hev
    exact op1_ctrl_comm _ (fun _ => diag_of_isDiag1 hev.1 _) (fun e => absurd e ht)

/-- when `evaluate_gate_interaction` reports "commute", the operators commute -/
theorem interaction_sound {g1 g2 : Gate} (s1 : Sem g1) (s2 : Sem g2) {k : ℕ}
    (hev : evaluateGateInteraction g1 g2 = .ok (true, k)) : Commute g1.op g2.op := by
  by_cases h0 : (g1.qubitSet.filter (· ∈ g2.qubitSet)).length = 0
  · exact op_comm_disj (disj_of_common h0)
  by_cases hd : Disj g1 g2
  · exact op_comm_disj hd
  by_cases h1 : g1.target = g1.control
  · by_cases h2 : g2.target = g2.control
    · have h : g1.target = g2.target := by unfold Disj at hd; omega
      rw [ev11 h1 h2 h] at hev
      obtain ⟨_, _, _, e1, _⟩ := s1.of_one h1
      obtain ⟨_, _, _, e2, _⟩ := s2.of_one h2
      rw [e1, e2, h]
      apply op1_comm_same
      split_ifs at hev with hp
      · rw [Bool.and_eq_true] at hp
        exact (diag_of_isDiag1 (isPhase1_diag hp.1) _).comm (diag_of_isDiag1 (isPhase1_diag hp.2) _)
      · rw [Bool.and_eq_true] at hp
        exact (diag_of_isDiag1 (isPhase1_diag hp.1) _).comm (diag_of_isDiag1 (isPhase1_diag hp.2) _)
      all_goals
        simp only [Except.ok.injEq, Prod.mk.injEq] at hev
        exact pair_comm hev.1 _ _
    · have h : g1.target = g2.target ∨ g1.target = g2.control := by unfold Disj at hd; omega
      rw [ev12 h1 h2 h] at hev
      by_cases hn : g1.type = .SWAP ∨ g2.type = .SWAP ∨ g1.type = .A ∨ g2.type = .A
      · rw [if_pos hn] at hev; cases hev
      · rw [if_neg hn] at hev
        exact one_ctrl_comm s1 s2 h1 h2 hn hev
  · by_cases h2 : g2.target = g2.control
    · have h : g1.target = g2.target ∨ g1.control = g2.target := by unfold Disj at hd; omega
      rw [ev21 h1 h2 h] at hev
      by_cases hn : g1.type = .SWAP ∨ g2.type = .SWAP ∨ g1.type = .A ∨ g2.type = .A
      · rw [if_pos hn] at hev; cases hev
      · rw [if_neg hn] at hev
        exact (one_ctrl_comm s2 s1 h2 h1 (by tauto) hev).symm
    · rcases common22 h1 h2 with h | ⟨hc, h⟩ | ⟨hc, h⟩
      · exact absurd h h0
      · rw [ev22_1 h1 h2 hc] at hev
        by_cases hn : g1.type = .SWAP ∨ g2.type = .SWAP ∨ g1.type = .A ∨ g2.type = .A
        · rw [if_pos hn] at hev; cases hev
        rw [if_neg hn] at hev
        push Not at hn
        obtain ⟨b1, m1, e1, hx1⟩ := s1.of_ctrl h1 hn.2.2.1 hn.1
        obtain ⟨b2, m2, e2, hx2⟩ := s2.of_ctrl h2 hn.2.2.2 hn.2.1
        rw [e1, e2]
        rcases h with ⟨p1, p2, p3, p4⟩ | ⟨p1, p2, p3, p4⟩ | ⟨p1, p2, p3, p4⟩ | ⟨p1, p2, p3, p4⟩
        · exact ctrl_ctrl_comm _ _ (fun e => absurd e p4) (fun e => absurd e.symm p3) (fun e => absurd e p2)
        · rw [if_neg p2, if_pos p1] at hev
          rcases hc1 : ctrlTo1 g1.type with e | x
          · rw [hc1] at hev; cases hev
          rcases hc2 : ctrlTo1 g2.type with e | y
          · rw [hc1, hc2] at hev; cases hev
          rw [hc1, hc2, except_ok_bind, except_ok_bind] at hev
          obtain ⟨_, rfl, _⟩ := hx1 x hc1
          obtain ⟨_, rfl, _⟩ := hx2 y hc2
          simp only [pure, Except.pure, Except.ok.injEq, Prod.mk.injEq] at hev
          exact ctrl_ctrl_comm _ _ (fun e => absurd e p4) (fun e => absurd e.symm p3) (fun _ => pair_comm hev.1 _ _)
        · rw [if_neg p3, if_neg p4, if_pos p1] at hev
          rcases hc1 : ctrlTo1 g1.type with e | x
          · rw [hc1] at hev; cases hev
          rw [hc1, except_ok_bind] at hev
          obtain ⟨_, rfl, _⟩ := hx1 x hc1
          simp only [pure, Except.pure, Except.ok.injEq, Prod.mk.injEq] at hev
          exact ctrl_ctrl_comm _ _ (fun e => absurd e p2) (fun _ => diag_of_isDiag1 hev.1 _) (fun e => absurd e p4)
        · rw [if_neg p3, if_neg p4, if_neg p2] at hev
          rcases hc2 : ctrlTo1 g2.type with e | x
          · rw [hc2] at hev; cases hev
          rw [hc2, except_ok_bind] at hev
          obtain ⟨_, rfl, _⟩ := hx2 x hc2
          simp only [pure, Except.pure, Except.ok.injEq, Prod.mk.injEq] at hev
          exact ctrl_ctrl_comm _ _ (fun _ => diag_of_isDiag1 hev.1 _) (fun e => absurd e.symm p2) (fun e => absurd e p4)
      · rw [ev22_2 h1 h2 hc] at hev
        by_cases hs : (isSym2 g1.type && isSym2 g2.type) = true
        · rw [Bool.and_eq_true] at hs
          refine phase_or_swap_comm h2 (s1.of_sym' h1 hs.1 ?_) (s2.of_sym' h2 hs.2 (.inl ⟨rfl, rfl⟩))
          exact h
        rw [if_neg hs] at hev
        by_cases hS : g1.type = .SWAP ∨ g2.type = .SWAP
        · rw [if_pos hS] at hev; cases hev
        rw [if_neg hS] at hev
        push Not at hS
        by_cases hA : g1.type = .A ∨ g2.type = .A
        · rw [if_pos hA] at hev
          by_cases hs' : (isSym2 g1.type || isSym2 g2.type) = true
          · rw [Bool.or_eq_true] at hs'
            rcases hA with hA | hA
            · refine A_sym_comm s1 s2 h1 h2 hA (hs'.resolve_left ?_) hS.2 h
              rw [hA]; decide
            · refine (A_sym_comm s2 s1 h2 h1 hA (hs'.resolve_right ?_) hS.1 ?_).symm
              · rw [hA]; decide
              · rcases h with h | h
                · exact .inl ⟨h.1.symm, h.2.symm⟩
                · exact .inr ⟨h.2.symm, h.1.symm⟩
          · rw [if_neg hs'] at hev; cases hev
        rw [if_neg hA] at hev
        push Not at hA
        obtain ⟨b1, m1, e1, hx1⟩ := s1.of_ctrl h1 hA.1 hS.1
        obtain ⟨b2, m2, e2, hx2⟩ := s2.of_ctrl h2 hA.2 hS.2
        rw [e1, e2]
        by_cases ht : g1.target = g2.target
        · rw [if_pos ht] at hev
          rcases hc1 : ctrlTo1 g1.type with e | x
          · rw [hc1] at hev; cases hev
          rcases hc2 : ctrlTo1 g2.type with e | y
          · rw [hc1, hc2] at hev; cases hev
          rw [hc1, hc2, except_ok_bind, except_ok_bind] at hev
          obtain ⟨_, rfl, _⟩ := hx1 x hc1
          obtain ⟨_, rfl, _⟩ := hx2 y hc2
          simp only [pure, Except.pure, Except.ok.injEq, Prod.mk.injEq] at hev
          exact ctrl_ctrl_comm _ _ (fun e => by omega) (fun e => by omega) (fun _ => pair_comm hev.1 _ _)
        · rw [if_neg ht] at hev
          rcases hc1 : ctrlTo1 g1.type with e | x
          · rw [hc1] at hev; cases hev
          rw [hc1, except_ok_bind] at hev
          obtain ⟨_, rfl, _⟩ := hx1 x hc1
          by_cases hdx : isDiag1 x = true
          · rw [if_pos hdx] at hev
            rcases hc2 : ctrlTo1 g2.type with e | y
            · rw [hc2] at hev; cases hev
            rw [hc2, except_ok_bind] at hev
            obtain ⟨_, rfl, _⟩ := hx2 y hc2
            simp only [pure, Except.pure, Except.ok.injEq, Prod.mk.injEq] at hev
            exact ctrl_ctrl_comm _ _ (fun _ => diag_of_isDiag1 hev.1 _) (fun _ => diag_of_isDiag1 hdx _) (fun e => absurd e ht)
          · rw [if_neg hdx] at hev; cases hev

end QF
