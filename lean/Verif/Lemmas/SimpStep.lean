import Verif.Lemmas.Interaction
import Verif.Spec.CircuitOp

/-! One step of `Circuit::simplify`. -/
namespace QF

/-- what the simplification code of `evaluate_gate_interaction` says -/
inductive Code (g1 g2 : Gate) : ℕ → Prop
  | c0 : Code g1 g2 0
  | c1one (h1 : g1.target = g1.control) (h2 : g2.target = g2.control) (h : g1.target = g2.target)
      (ht : g1.type = g2.type) : Code g1 g2 1
  | c1two (x : GateType) (h1 : g1.target ≠ g1.control) (h : g1.target = g2.target) (h' : g1.control = g2.control)
      (ht : g1.type = g2.type) (hx : ctrlTo1 g1.type = .ok x) : Code g1 g2 1
  | c2 (h1 : g1.target ≠ g1.control) (h2 : g2.target ≠ g2.control)
      (h : (g1.target = g2.target ∧ g1.control = g2.control) ∨ (g1.target = g2.control ∧ g1.control = g2.target))
      (ht : g1.type = g2.type) (hs : isSym2 g1.type = true) : Code g1 g2 2
  | c3 (h1 : g1.target = g1.control) (h2 : g2.target = g2.control) (h : g1.target = g2.target)
      (hp1 : isPhase1 g1.type = true) (hp2 : isPhase1 g2.type = true) : Code g1 g2 3
  | c4one (h1 : g1.target = g1.control) (h2 : g2.target = g2.control) (h : g1.target = g2.target)
      (hv : isVadjV g1.type g2.type = true) : Code g1 g2 4
  | c4two (x y : GateType) (h1 : g1.target ≠ g1.control) (h : g1.target = g2.target) (h' : g1.control = g2.control)
      (hx : ctrlTo1 g1.type = .ok x) (hy : ctrlTo1 g2.type = .ok y) (hv : isVadjV x y = true) : Code g1 g2 4

theorem isVadjV_ne {x y : GateType} (h : isVadjV x y = true) : x ≠ y := by
  revert h; cases x <;> cases y <;> decide

theorem ev_code {g1 g2 : Gate} {k : ℕ} (hev : evaluateGateInteraction g1 g2 = .ok (true, k)) : Code g1 g2 k := by
  by_cases h0 : (g1.qubitSet.filter (· ∈ g2.qubitSet)).length = 0
  · rw [ev_disj h0] at hev; cases hev; exact .c0
  have hd : ¬ Disj g1 g2 := by
    intro hd; apply h0
    rw [List.length_eq_zero_iff, List.filter_eq_nil_iff]
    intro a ha
    unfold Gate.qubitSet at ha ⊢
    unfold Disj at hd
    split_ifs at ha ⊢ <;> simp at ha ⊢ <;> omega
  by_cases h1 : g1.target = g1.control
  · by_cases h2 : g2.target = g2.control
    · have h : g1.target = g2.target := by unfold Disj at hd; omega
      rw [ev11 h1 h2 h] at hev
      by_cases hp : (isPhase1 g1.type && isPhase1 g2.type) = true
      · rw [if_pos hp] at hev
        rw [Bool.and_eq_true] at hp
        by_cases ht : g1.type = g2.type
        · rw [if_pos ht] at hev; cases hev; exact .c1one h1 h2 h ht
        · rw [if_neg ht] at hev; cases hev; exact .c3 h1 h2 h hp.1 hp.2
      · rw [if_neg hp] at hev
        simp only [Except.ok.injEq, Prod.mk.injEq] at hev
        obtain ⟨_, rfl⟩ := hev
        by_cases ht : g1.type = g2.type
        · by_cases hv : isVadjV g1.type g2.type = true
          · exact absurd ht (isVadjV_ne hv)
          · rw [if_pos ht, if_neg hv]; exact .c1one h1 h2 h ht
        · by_cases hv : isVadjV g1.type g2.type = true
          · rw [if_neg ht, if_pos hv]; exact .c4one h1 h2 h hv
          · rw [if_neg ht, if_neg hv]; exact .c0
    · have h : g1.target = g2.target ∨ g1.target = g2.control := by unfold Disj at hd; omega
      rw [ev12 h1 h2 h] at hev
      split_ifs at hev
      · cases hev
      · rcases hc : ctrlTo1 g2.type with e | x
        · rw [hc] at hev; cases hev
        · rw [hc, except_ok_bind] at hev
          simp only [pure, Except.pure, Except.ok.injEq, Prod.mk.injEq] at hev
          rw [← hev.2]; exact .c0
      · simp only [Except.ok.injEq, Prod.mk.injEq] at hev
        rw [← hev.2]; exact .c0
  · by_cases h2 : g2.target = g2.control
    · have h : g1.target = g2.target ∨ g1.control = g2.target := by unfold Disj at hd; omega
      rw [ev21 h1 h2 h] at hev
      split_ifs at hev
      · cases hev
      · rcases hc : ctrlTo1 g1.type with e | x
        · rw [hc] at hev; cases hev
        · rw [hc, except_ok_bind] at hev
          simp only [pure, Except.pure, Except.ok.injEq, Prod.mk.injEq] at hev
          rw [← hev.2]; exact .c0
      · simp only [Except.ok.injEq, Prod.mk.injEq] at hev
        rw [← hev.2]; exact .c0
    · rcases common22 h1 h2 with h | ⟨hc, h⟩ | ⟨hc, h⟩
      · exact absurd h h0
      · rw [ev22_1 h1 h2 hc] at hev
        split_ifs at hev
        · cases hev
        · cases hev; exact .c0
        · rcases hc1 : ctrlTo1 g1.type with e | x
          · rw [hc1] at hev; cases hev
          rcases hc2 : ctrlTo1 g2.type with e | y
          · rw [hc1, hc2] at hev; cases hev
          rw [hc1, hc2, except_ok_bind, except_ok_bind] at hev
          simp only [pure, Except.pure, Except.ok.injEq, Prod.mk.injEq] at hev
          rw [← hev.2]; exact .c0
        · rcases hc1 : ctrlTo1 g1.type with e | x
          · rw [hc1] at hev; cases hev
          rw [hc1, except_ok_bind] at hev
          simp only [pure, Except.pure, Except.ok.injEq, Prod.mk.injEq] at hev
          rw [← hev.2]; exact .c0
        · rcases hc1 : ctrlTo1 g2.type with e | x
          · rw [hc1] at hev; cases hev
          rw [hc1, except_ok_bind] at hev
          simp only [pure, Except.pure, Except.ok.injEq, Prod.mk.injEq] at hev
          rw [← hev.2]; exact .c0
      · rw [ev22_2 h1 h2 hc] at hev
        by_cases hs : (isSym2 g1.type && isSym2 g2.type) = true
        · rw [if_pos hs] at hev
          rw [Bool.and_eq_true] at hs
          simp only [Except.ok.injEq, Prod.mk.injEq, true_and] at hev
          by_cases ht : g1.type = g2.type
          · rw [if_pos ht] at hev; rw [← hev]; exact .c2 h1 h2 h ht hs.1
          · rw [if_neg ht] at hev; rw [← hev]; exact .c0
        rw [if_neg hs] at hev
        by_cases hS : g1.type = .SWAP ∨ g2.type = .SWAP
        · rw [if_pos hS] at hev; cases hev
        rw [if_neg hS] at hev
        by_cases hA : g1.type = .A ∨ g2.type = .A
        · rw [if_pos hA] at hev
          split_ifs at hev
          · cases hev; exact .c0
          · cases hev
        rw [if_neg hA] at hev
        by_cases ht : g1.target = g2.target
        · have htc : g1.control = g2.control := by omega
          rw [if_pos ht] at hev
          rcases hc1 : ctrlTo1 g1.type with e | x
          · rw [hc1] at hev; cases hev
          rcases hc2 : ctrlTo1 g2.type with e | y
          · rw [hc1, hc2] at hev; cases hev
          rw [hc1, hc2, except_ok_bind, except_ok_bind] at hev
          simp only [pure, Except.pure, Except.ok.injEq, Prod.mk.injEq] at hev
          obtain ⟨_, rfl⟩ := hev
          by_cases hty : g1.type = g2.type
          · by_cases hv : isVadjV x y = true
            · rw [hty, hc2] at hc1; cases hc1
              exact absurd rfl (isVadjV_ne hv)
            · rw [if_pos hty, if_neg hv]; exact .c1two x h1 ht htc hty hc1
          · by_cases hv : isVadjV x y = true
            · rw [if_neg hty, if_pos hv]; exact .c4two x y h1 ht htc hc1 hc2 hv
            · rw [if_neg hty, if_neg hv]; exact .c0
        · rw [if_neg ht] at hev
          rcases hc1 : ctrlTo1 g1.type with e | x
          · rw [hc1] at hev; cases hev
          rw [hc1, except_ok_bind] at hev
          by_cases hdx : isDiag1 x = true
          · rw [if_pos hdx] at hev
            rcases hc2 : ctrlTo1 g2.type with e | y
            · rw [hc2] at hev; cases hev
            rw [hc2, except_ok_bind] at hev
            simp only [pure, Except.pure, Except.ok.injEq, Prod.mk.injEq] at hev
            rw [← hev.2]; exact .c0
          · rw [if_neg hdx] at hev; cases hev

/-! ### products of the 2×2 matrices -/

theorem m2_mul (a b c d a' b' c' d' : ℂ) : M2.mul (m2 a b c d) (m2 a' b' c' d') =
    m2 (a * a' + b * c') (a * b' + b * d') (c * a' + d * c') (c * b' + d * d') := by
  funext u v; cases u <;> cases v <;> simp [M2.mul, m2]

/-- the involutory one-qubit types -/
theorem typeM_invol {a : GateType} (h : a = .X ∨ a = .Y ∨ a = .Z ∨ a = .H) (p q : ℝ) :
    M2.mul (typeM a p) (typeM a q) = M2.one := by
  rcases h with rfl | rfl | rfl | rfl <;> simp only [typeM, m2_mul, ← m2_one]
  · simp
  · simp
  · simp
  · have h := inv_sqrt_two_sq
    congr 1
    · linear_combination 2 * h
    · ring
    · ring
    · linear_combination 2 * h

theorem typeM_add {a : GateType} (h : a = .R ∨ a = .Rx ∨ a = .Ry ∨ a = .Rz) (p q : ℝ) :
    M2.mul (typeM a q) (typeM a p) = typeM a (p + q) := by
  have hI := Complex.I_sq
  have hc : ((Real.cos ((p + q) / 2) : ℝ) : ℂ) = (Real.cos (p/2) : ℝ) * (Real.cos (q/2) : ℝ) - (Real.sin (p/2) : ℝ) * (Real.sin (q/2) : ℝ) := by
    rw [add_div, Real.cos_add]; push_cast; ring
  have hs : ((Real.sin ((p + q) / 2) : ℝ) : ℂ) = (Real.sin (p/2) : ℝ) * (Real.cos (q/2) : ℝ) + (Real.cos (p/2) : ℝ) * (Real.sin (q/2) : ℝ) := by
    rw [add_div, Real.sin_add]; push_cast; ring
  rcases h with rfl | rfl | rfl | rfl <;> simp only [typeM, m2_mul]
  · rw [← Complex.exp_add]; push_cast; simp only [mul_add, add_comm (Complex.I * (p:ℂ))]; simp
  · rw [hc, hs]
    congr 1
    · linear_combination ((Real.sin (p/2) : ℝ):ℂ) * (Real.sin (q/2) : ℝ) * hI
    · ring
    · ring
    · linear_combination ((Real.sin (p/2) : ℝ):ℂ) * (Real.sin (q/2) : ℝ) * hI
  · rw [hc, hs]
    congr 1 <;> ring
  · rw [← Complex.exp_add, ← Complex.exp_add]
    push_cast
    rw [show -(Complex.I * ((q:ℂ) / 2)) + -(Complex.I * ((p:ℂ) / 2)) = -(Complex.I * (((p:ℂ) + q) / 2)) by ring,
      show Complex.I * ((q:ℂ) / 2) + Complex.I * ((p:ℂ) / 2) = Complex.I * (((p:ℂ) + q) / 2) by ring]
    simp

theorem exp_pi_I : Complex.exp (Complex.I * (Real.pi : ℝ)) = -1 := by
  rw [mul_comm]; exact Complex.exp_pi_mul_I

theorem typeM_sqV (p q : ℝ) : M2.mul (typeM .V p) (typeM .V q) = typeM .X 0 := by
  have hI := Complex.I_sq
  simp only [typeM, m2_mul]
  congr 1
  · linear_combination 0.5 * hI
  · linear_combination (-0.5) * hI
  · linear_combination (-0.5) * hI
  · linear_combination 0.5 * hI

theorem typeM_sqadjV (p q : ℝ) : M2.mul (typeM .adjV p) (typeM .adjV q) = typeM .X 0 := by
  have hI := Complex.I_sq
  simp only [typeM, m2_mul]
  congr 1
  · linear_combination 0.5 * hI
  · linear_combination (-0.5) * hI
  · linear_combination (-0.5) * hI
  · linear_combination 0.5 * hI

theorem typeM_VadjV (p q : ℝ) : M2.mul (typeM .V p) (typeM .adjV q) = M2.one ∧
    M2.mul (typeM .adjV p) (typeM .V q) = M2.one := by
  have hI := Complex.I_sq
  simp only [typeM, m2_mul, ← m2_one]
  constructor <;> congr 1
  · linear_combination (-0.5) * hI
  · linear_combination (0.5) * hI
  · linear_combination (0.5) * hI
  · linear_combination (-0.5) * hI
  · linear_combination (-0.5) * hI
  · linear_combination (0.5) * hI
  · linear_combination (0.5) * hI
  · linear_combination (-0.5) * hI

theorem typeM_sqT (p q : ℝ) : M2.mul (typeM .T p) (typeM .T q) = typeM .S 0 := by
  simp only [typeM, m2_mul]
  rw [← Complex.exp_add, ← mul_add, ← Complex.ofReal_add, show Real.pi / 4 + Real.pi / 4 = Real.pi / 2 by ring, exp_pi_div_two]
  simp

theorem typeM_sqS (p q : ℝ) : M2.mul (typeM .S p) (typeM .S q) = typeM .Z 0 := by
  simp only [typeM, m2_mul]; simp

end QF

namespace QF

theorem ctrl_mul {t c : ℕ} (h : t ≠ c) (b : Bool) (m m' : M2) :
    ctrlOp c b (op1 t m) * ctrlOp c b (op1 t m') = ctrlOp c b (op1 t (M2.mul m m')) := by
  rw [← op1_mul]
  apply Op.ext'; intro ψ I
  simp only [Module.End.mul_apply, ctrlOp_apply, op1_apply, testBit_setBit, h.symm, if_false]
  cases hb : decide (I.testBit c = b) <;> simp at hb <;> simp [hb]

theorem ctrl_one (c : ℕ) (b : Bool) : ctrlOp c b 1 = 1 := by
  apply Op.ext'; intro ψ I
  simp [ctrlOp_apply]

theorem phase11_mul (t c : ℕ) (w w' : ℂ) : phase11 t c w * phase11 t c w' = phase11 t c (w * w') := by
  apply Op.ext'; intro ψ I
  simp only [Module.End.mul_apply, phase11_apply]
  split_ifs <;> ring

theorem phase11_one (t c : ℕ) : phase11 t c 1 = 1 := by
  apply Op.ext'; intro ψ I
  simp [phase11_apply]

/-- parameter of a phase gate (circuit.cc:229-244) gives its matrix -/
theorem phase_param {g : Gate} (s : Sem g) (h1 : g.target = g.control) (hp : isPhase1 g.type = true) :
    ∃ p, phaseGateParameter g = .ok p ∧ g.op = op1 g.target (typeM .R p) := by
  obtain ⟨_, _, _, e, hpar, hn⟩ := s.of_one h1
  rw [e]
  unfold phaseGateParameter
  have hc : g.type = .T ∨ g.type = .S ∨ g.type = .Z ∨ g.type = .R := by
    revert hp; cases g.type <;> decide
  rcases hc with hc | hc | hc | hc
  · rw [hn (by rw [hc]; decide), hc]
    exact ⟨_, rfl, rfl⟩
  · rw [hn (by rw [hc]; decide), hc]
    refine ⟨_, rfl, ?_⟩
    simp only [typeM]; rw [exp_pi_div_two]
  · rw [hn (by rw [hc]; decide), hc]
    refine ⟨_, rfl, ?_⟩
    simp only [typeM]; rw [exp_pi_I]
  · obtain ⟨p, hp⟩ := hpar (by rw [hc]; decide)
    rw [hp, hc]
    exact ⟨_, rfl, rfl⟩

/-- what a step of the simplification loop guarantees -/
def StepOK (g1 g2 : Gate) : SimpStep → Prop
  | .next => Commute g1.op g2.op
  | .stop => True
  | .removeBoth => g2.op * g1.op = 1
  | .merge g => g.op = g2.op * g1.op ∧ IsNamed g

theorem invol_one {a : GateType} (h : isInvolutory a = true) (h' : ∀ x, ctrlTo1 a ≠ .ok x) (hs : a ≠ .SWAP) :
    a = .X ∨ a = .Y ∨ a = .Z ∨ a = .H := by
  revert h h' hs; cases a <;> simp [ctrlTo1, isInvolutory]

theorem invol_ctrl {a x : GateType} (h : isInvolutory a = true) (h' : ctrlTo1 a = .ok x) :
    x = .X ∨ x = .Y ∨ x = .Z ∨ x = .H := by
  revert h h'; cases a <;> simp [ctrlTo1, isInvolutory] <;> rintro rfl <;> simp

theorem param_one {a : GateType} (h : isParametrized a = true) (h' : ∀ x, ctrlTo1 a ≠ .ok x) :
    a = .R ∨ a = .Rx ∨ a = .Ry ∨ a = .Rz := by
  revert h h'; cases a <;> simp [ctrlTo1, isParametrized]

theorem param_ctrl {a x : GateType} (h : isParametrized a = true) (h' : ctrlTo1 a = .ok x) :
    (a = .cR ∧ x = .R) ∨ (a = .cRz ∧ x = .Rz) := by
  revert h h'; cases a <;> simp [ctrlTo1, isParametrized] <;> rintro rfl <;> simp

theorem sqrt_one {a : GateType} (h : isSquareRoot a = true) (h' : ∀ x, ctrlTo1 a ≠ .ok x) :
    a = .T ∨ a = .S ∨ a = .V ∨ a = .adjV := by
  revert h h'; cases a <;> simp [ctrlTo1, isSquareRoot]

theorem sqrt_ctrl {a x : GateType} (h : isSquareRoot a = true) (h' : ctrlTo1 a = .ok x) :
    (a = .cV ∧ x = .V) ∨ (a = .adjcV ∧ x = .adjV) := by
  revert h h'; cases a <;> simp [ctrlTo1, isSquareRoot] <;> rintro rfl <;> simp

/-- merging one-qubit gates by calling `make_gate` -/
theorem make_one {l : String} {t c : ℕ} {θ : ℝ} {g : Gate} (htc : t = c) (h : makeGate l t c θ = .ok g) :
    g.op = op1 t (typeM (mapLabelToType l) θ) := by
  subst htc
  obtain ⟨h1, _⟩ := made_one (made_of_makeGate h)
  rw [h1, Gate.type, (makeGate_spec h).1]

theorem make_ctrl {l : String} {t c : ℕ} {θ : ℝ} {g : Gate} {x : GateType} (htc : t ≠ c)
    (h : makeGate l t c θ = .ok g) (hx : ctrlTo1 (mapLabelToType l) = .ok x) :
    g.op = ctrlOp c (decide (mapLabelToType l ≠ .acX)) (op1 t (typeM x θ)) := by
  have hty : g.type = mapLabelToType l := by rw [Gate.type, (makeGate_spec h).1]
  rcases made_two (made_of_makeGate h) htc with h1 | h1 | ⟨y, h1, h2, _⟩
  · rw [← hty, h1.1] at hx; cases hx
  · rw [← hty, h1.1] at hx; cases hx
  · rw [← hty, h1] at hx; cases hx
    rw [h2, hty]

theorem simpStep_sound {g1 g2 : Gate} (s1 : Sem g1) (s2 : Sem g2) {r : SimpStep}
    (h : simpStep g1 g2 = .ok r) : StepOK g1 g2 r := by
  unfold simpStep at h
  rcases hev : evaluateGateInteraction g1 g2 with e | ⟨b, k⟩
  · rw [hev] at h; cases h
  rw [hev, except_ok_bind] at h
  cases b
  · simp only [Bool.false_eq_true, if_false, pure, Except.pure] at h
    cases h; trivial
  have hcomm := interaction_sound s1 s2 hev
  have hcode := ev_code hev
  simp only [if_true] at h
  cases hcode with
  | c0 =>
    simp only [if_true, pure, Except.pure] at h
    cases h; exact hcomm
  | c1one h1 h2 ht hty =>
    simp only [Nat.one_ne_zero, if_false, if_true] at h
    obtain ⟨a1, a2, _, e1, p1, _⟩ := s1.of_one h1
    obtain ⟨_, _, _, e2, p2, _⟩ := s2.of_one h2
    by_cases hi : isInvolutory g1.type = true
    · rw [if_pos hi] at h
      cases h
      show g2.op * g1.op = 1
      rw [e1, e2, ht, op1_mul, ← hty, typeM_invol (invol_one hi a1 a2), op1_one]
    rw [if_neg hi] at h
    by_cases hp : isParametrized g1.type = true
    · rw [if_pos hp] at h
      obtain ⟨p, hp1⟩ := p1 hp
      obtain ⟨q, hq1⟩ := p2 (hty ▸ hp)
      rw [hp1, hq1] at h
      simp only [deref, except_ok_bind] at h
      rcases hmk : makeGate g2.label g2.target g2.control (p + q) with e | g
      · rw [hmk] at h; cases h
      rw [hmk, except_ok_bind] at h
      cases h
      refine ⟨?_, isNamed_of_make hmk⟩
      rw [make_one h2 hmk, e1, e2, ht, op1_mul, hp1, hq1, hty]
      simp only [Option.getD_some]
      rw [typeM_add (by rw [← hty]; exact param_one hp a1)]
      rfl
    rw [if_neg hp] at h
    by_cases hs : isSquareRoot g1.type = true
    · rw [if_pos hs] at h
      have key : ∀ (l : String) (y : GateType), squareOf g2.type = .ok l → mapLabelToType l = y →
          (∀ p q, M2.mul (typeM g2.type p) (typeM g2.type q) = typeM y 0) → StepOK g1 g2 r := by
        intro l y hl hy hm
        rw [hl, except_ok_bind] at h
        rcases hmk : makeGate l g2.target g2.control 0 with e | g
        · rw [hmk] at h; cases h
        rw [hmk, except_ok_bind] at h
        cases h
        refine ⟨?_, isNamed_of_make hmk⟩
        rw [make_one h2 hmk, hy, e1, e2, ht, op1_mul, hty, hm]
      rcases sqrt_one hs a1 with hc | hc | hc | hc
      · rw [hty] at hc
        exact key "S" .S (by rw [hc]; rfl) (by decide) (by rw [hc]; exact typeM_sqT)
      · rw [hty] at hc
        exact key "Z" .Z (by rw [hc]; rfl) (by decide) (by rw [hc]; exact typeM_sqS)
      · rw [hty] at hc
        exact key "X" .X (by rw [hc]; rfl) (by decide) (by rw [hc]; exact typeM_sqV)
      · rw [hty] at hc
        exact key "X" .X (by rw [hc]; rfl) (by decide) (by rw [hc]; exact typeM_sqadjV)
    · rw [if_neg hs] at h
      cases h; exact hcomm
  | c1two x h1 ht hct hty hx =>
    simp only [Nat.one_ne_zero, if_false, if_true] at h
    have h2 : g2.target ≠ g2.control := by rw [← ht, ← hct]; exact h1
    have hx2 : ctrlTo1 g2.type = .ok x := hty ▸ hx
    obtain ⟨n1, n2, _⟩ := ctrlTo1_ok hx
    obtain ⟨b1, m1, e1, k1⟩ := s1.of_ctrl h1 n2 n1
    obtain ⟨b2, m2, e2, k2⟩ := s2.of_ctrl h2 (hty ▸ n2) (hty ▸ n1)
    obtain ⟨rfl, rfl, p1⟩ := k1 x hx
    obtain ⟨rfl, rfl, p2⟩ := k2 x hx2
    have hmul : g2.op * g1.op = ctrlOp g2.control (decide (g2.type ≠ .acX)) (op1 g2.target
        (M2.mul (typeM x (g2.parameter.getD 0)) (typeM x (g1.parameter.getD 0)))) := by
      rw [e1, e2, ht, hct, hty, ctrl_mul h2]
    by_cases hi : isInvolutory g1.type = true
    · rw [if_pos hi] at h
      cases h
      show g2.op * g1.op = 1
      rw [hmul, typeM_invol (invol_ctrl hi hx), op1_one, ctrl_one]
    rw [if_neg hi] at h
    by_cases hp : isParametrized g1.type = true
    · rw [if_pos hp] at h
      obtain ⟨p, hp1⟩ := p1 hp
      obtain ⟨q, hq1⟩ := p2 (hty ▸ hp)
      rw [hp1, hq1] at h
      simp only [deref, except_ok_bind] at h
      rcases hmk : makeGate g2.label g2.target g2.control (p + q) with e | g
      · rw [hmk] at h; cases h
      rw [hmk, except_ok_bind] at h
      cases h
      refine ⟨?_, isNamed_of_make hmk⟩
      rw [make_ctrl h2 hmk hx2, hmul, hp1, hq1]
      simp only [Option.getD_some]
      rw [typeM_add (by rcases param_ctrl hp hx with h | h <;> simp [h.2])]
      rfl
    rw [if_neg hp] at h
    by_cases hs : isSquareRoot g1.type = true
    · rw [if_pos hs] at h
      have key : squareOf g2.type = .ok "cX" → g2.type ≠ .acX →
          (∀ p q, M2.mul (typeM x p) (typeM x q) = typeM .X 0) → StepOK g1 g2 r := by
        intro hl hne hm
        rw [hl, except_ok_bind] at h
        rcases hmk : makeGate "cX" g2.target g2.control 0 with e | g
        · rw [hmk] at h; cases h
        rw [hmk, except_ok_bind] at h
        cases h
        refine ⟨?_, isNamed_of_make hmk⟩
        rw [make_ctrl h2 hmk (by decide : ctrlTo1 (mapLabelToType "cX") = .ok .X), hmul, hm, decide_eq_true hne]
        rfl
      rcases sqrt_ctrl hs hx with ⟨hc, rfl⟩ | ⟨hc, rfl⟩
      · rw [hty] at hc
        exact key (by rw [hc]; rfl) (by rw [hc]; decide) typeM_sqV
      · rw [hty] at hc
        exact key (by rw [hc]; rfl) (by rw [hc]; decide) typeM_sqadjV
    · rw [if_neg hs] at h
      cases h; exact hcomm
  | c2 h1 h2 hq hty hs =>
    simp only [show (2:ℕ) ≠ 0 by decide, show (2:ℕ) ≠ 1 by decide, if_false, if_true] at h
    have w1 := s1.of_sym h1 hs
    have w2 := s2.of_sym h2 (hty ▸ hs)
    by_cases hi : isInvolutory g1.type = true
    · rw [if_pos hi] at h
      cases h
      show g2.op * g1.op = 1
      rcases w1 with ⟨t1, w1⟩ | ⟨t1, w1⟩ | ⟨t1, _⟩
      · rcases w2 with ⟨t2, w2⟩ | ⟨t2, w2⟩ | ⟨t2, _⟩
        · rw [w1, w2]
          rcases hq with ⟨a, b⟩ | ⟨a, b⟩
          · rw [a, b, swapOp_sq h2]
          · rw [a, b, swapOp_symm g2.control, swapOp_sq h2]
        · rw [← hty, t1] at t2; cases t2
        · rw [← hty, t1] at t2; cases t2
      · rcases w2 with ⟨t2, w2⟩ | ⟨t2, w2⟩ | ⟨t2, _⟩
        · rw [← hty, t1] at t2; cases t2
        · rw [w1, w2]
          rcases hq with ⟨a, b⟩ | ⟨a, b⟩
          · rw [a, b, phase11_mul]; simp [phase11_one]
          · rw [a, b, phase11_symm g2.control, phase11_mul]; simp [phase11_one]
        · rw [← hty, t1] at t2; cases t2
      · rw [t1] at hi; exact absurd hi (by decide)
    rw [if_neg hi] at h
    rcases w1 with ⟨t1, w1⟩ | ⟨t1, w1⟩ | ⟨t1, p, hp1, w1⟩
    · rw [t1] at hi; exact absurd (by decide) hi
    · rw [t1] at hi; exact absurd (by decide) hi
    rcases w2 with ⟨t2, w2⟩ | ⟨t2, w2⟩ | ⟨t2, q, hq1, w2⟩
    · rw [← hty, t1] at t2; cases t2
    · rw [← hty, t1] at t2; cases t2
    rw [t1] at h
    simp only [ctrlTo1, except_ok_bind, show isPhase1 .R = true by decide, if_true, hp1, hq1, deref] at h
    rcases hmk : makeGate g2.label g2.target g2.control (p + q) with e | g
    · rw [hmk] at h; cases h
    rw [hmk, except_ok_bind] at h
    cases h
    refine ⟨?_, isNamed_of_make hmk⟩
    have hl : mapLabelToType g2.label = .cR := t2
    rw [make_ctrl h2 hmk (by rw [hl]; rfl), hl, w1, w2]
    have e : phase11 g1.target g1.control (Complex.exp (Complex.I * p)) =
        phase11 g2.target g2.control (Complex.exp (Complex.I * p)) := by
      rcases hq with ⟨a, b⟩ | ⟨a, b⟩
      · rw [a, b]
      · rw [a, b, phase11_symm]
    rw [e, phase11_mul, ← Complex.exp_add, ← mul_add, ← Complex.ofReal_add, add_comm q p]
    rfl
  | c3 h1 h2 ht hp1 hp2 =>
    simp only [show (3:ℕ) ≠ 0 by decide, show (3:ℕ) ≠ 1 by decide, show (3:ℕ) ≠ 2 by decide, if_false, if_true] at h
    obtain ⟨p, e1, f1⟩ := phase_param s1 h1 hp1
    obtain ⟨q, e2, f2⟩ := phase_param s2 h2 hp2
    rw [e1, e2, except_ok_bind, except_ok_bind] at h
    rcases hmk : makeGate "R" g2.target g2.control (p + q) with e | g
    · rw [hmk] at h; cases h
    rw [hmk, except_ok_bind] at h
    cases h
    refine ⟨?_, isNamed_of_make hmk⟩
    rw [make_one h2 hmk, f1, f2, ht, op1_mul, typeM_add (by simp)]
    rfl
  | c4one h1 h2 ht hv =>
    simp only [show (4:ℕ) ≠ 0 by decide, show (4:ℕ) ≠ 1 by decide, show (4:ℕ) ≠ 2 by decide, show (4:ℕ) ≠ 3 by decide, if_false, if_true] at h
    cases h
    obtain ⟨_, _, _, e1, _⟩ := s1.of_one h1
    obtain ⟨_, _, _, e2, _⟩ := s2.of_one h2
    show g2.op * g1.op = 1
    rw [e1, e2, ht, op1_mul]
    unfold isVadjV at hv
    rcases of_decide_eq_true hv with ⟨a, b⟩ | ⟨a, b⟩
    · rw [a, b, (typeM_VadjV _ _).1, op1_one]
    · rw [a, b, (typeM_VadjV _ _).2, op1_one]
  | c4two x y h1 ht hct hx hy hv =>
    simp only [show (4:ℕ) ≠ 0 by decide, show (4:ℕ) ≠ 1 by decide, show (4:ℕ) ≠ 2 by decide, show (4:ℕ) ≠ 3 by decide, if_false, if_true] at h
    cases h
    have h2 : g2.target ≠ g2.control := by rw [← ht, ← hct]; exact h1
    obtain ⟨n1, n2, _⟩ := ctrlTo1_ok hx
    obtain ⟨n1', n2', _⟩ := ctrlTo1_ok hy
    obtain ⟨b1, m1, e1, k1⟩ := s1.of_ctrl h1 n2 n1
    obtain ⟨b2, m2, e2, k2⟩ := s2.of_ctrl h2 n2' n1'
    obtain ⟨rfl, rfl, p1⟩ := k1 x hx
    obtain ⟨rfl, rfl, p2⟩ := k2 y hy
    show g2.op * g1.op = 1
    unfold isVadjV at hv
    have hb1 : decide (g1.type ≠ .acX) = true := by
      apply decide_eq_true; intro h; rw [h] at hx; cases hx
      rcases of_decide_eq_true hv with ⟨a, _⟩ | ⟨a, _⟩ <;> cases a
    have hb2 : decide (g2.type ≠ .acX) = true := by
      apply decide_eq_true; intro h; rw [h] at hy; cases hy
      rcases of_decide_eq_true hv with ⟨_, a⟩ | ⟨_, a⟩ <;> cases a
    rw [e1, e2, ht, hct, hb1, hb2, ctrl_mul h2]
    rcases of_decide_eq_true hv with ⟨a, b⟩ | ⟨a, b⟩
    · rw [a, b, (typeM_VadjV _ _).1, op1_one, ctrl_one]
    · rw [a, b, (typeM_VadjV _ _).2, op1_one, ctrl_one]

end QF
