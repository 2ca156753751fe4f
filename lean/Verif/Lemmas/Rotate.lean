import Verif.Lemmas.Measure
import Verif.Lemmas.Commute
import Verif.Lemmas.Exact
import Verif.Props.QubitOperator

/-! The basis change used by the measurement functions. -/
namespace QF

/-- `Rx(π/2)` as `qforte.gate` makes it -/
noncomputable def gRxh (t : ℕ) : Gate :=
  ⟨"Rx", t, t, mat1 (Real.cos (0.5 * normalizeAngle (Real.pi / 2) (4 * Real.pi)) : ℝ) (-(Complex.I * (Real.sin (0.5 * normalizeAngle (Real.pi / 2) (4 * Real.pi)) : ℝ)))
    (-(Complex.I * (Real.sin (0.5 * normalizeAngle (Real.pi / 2) (4 * Real.pi)) : ℝ))) (Real.cos (0.5 * normalizeAngle (Real.pi / 2) (4 * Real.pi)) : ℝ),
    some (normalizeAngle (Real.pi / 2) (4 * Real.pi), true)⟩
noncomputable def gH (t : ℕ) : Gate :=
  ⟨"H", t, t, mat1 ((1 / Real.sqrt 2 : ℝ) : ℂ) ((1 / Real.sqrt 2 : ℝ) : ℂ) ((1 / Real.sqrt 2 : ℝ) : ℂ) (-((1 / Real.sqrt 2 : ℝ) : ℂ)), none⟩
def gI (t : ℕ) : Gate := ⟨"I", t, t, mat1 1 0 0 1, none⟩

theorem make_Rxh (t : ℕ) : makeGate "Rx" t t (Real.pi / 2) = .ok (gRxh t) := makeGate_of_made (.Rx t _)
theorem make_H (t : ℕ) (θ : ℝ) : makeGate "H" t t θ = .ok (gH t) := makeGate_of_made (.H t θ)
theorem make_I (t : ℕ) (θ : ℝ) : makeGate "I" t t θ = .ok (gI t) := makeGate_of_made (.I t θ)

theorem rxh_cos : Real.cos (0.5 * normalizeAngle (Real.pi / 2) (4 * Real.pi)) = Real.sqrt 2 / 2 := by
  obtain ⟨k, hk⟩ := normalizeAngle_eq (Real.pi / 2) (4 * Real.pi)
  rw [hk, show 0.5 * (Real.pi / 2 + k * (4 * Real.pi)) = Real.pi / 4 + k * (2 * Real.pi) by ring, Real.cos_add_int_mul_two_pi, Real.cos_pi_div_four]

theorem rxh_sin : Real.sin (0.5 * normalizeAngle (Real.pi / 2) (4 * Real.pi)) = Real.sqrt 2 / 2 := by
  obtain ⟨k, hk⟩ := normalizeAngle_eq (Real.pi / 2) (4 * Real.pi)
  rw [hk, show 0.5 * (Real.pi / 2 + k * (4 * Real.pi)) = Real.pi / 4 + k * (2 * Real.pi) by ring, Real.sin_add_int_mul_two_pi, Real.sin_pi_div_four]

theorem sqrt_half_pos : (1e-16 : ℝ) < Real.sqrt 2 / 2 := by
  have : (1 : ℝ) ≤ Real.sqrt 2 := Real.one_le_sqrt.2 (by norm_num)
  linarith

theorem exact_Rxh (t : ℕ) : ExactGate (gRxh t) := by
  refine ⟨api_unitary (.make (make_Rxh t)), rx_fast (.Rx t _) rfl ?_, ?_⟩
  · rw [show Real.pi / 2 / 2 = Real.pi / 4 by ring, Real.cos_pi_div_four, abs_of_pos (by positivity)]
    exact sqrt_half_pos
  · have h1 : ‖((Real.sqrt 2 / 2 : ℝ) : ℂ)‖ = Real.sqrt 2 / 2 := by
      rw [Complex.norm_real, Real.norm_eq_abs, abs_of_pos (by positivity)]
    have h2 : ‖-(Complex.I * ((Real.sqrt 2 / 2 : ℝ) : ℂ))‖ = Real.sqrt 2 / 2 := by
      rw [norm_neg, norm_mul, Complex.norm_I, one_mul, h1]
    intro i j hne
    revert hne
    simp only [gRxh, rxh_cos, rxh_sin]
    have := sqrt_half_pos
    fin_cases i <;> fin_cases j <;> simp only [mat1] <;> intro hne <;>
      first
        | exact absurd rfl hne
        | (show (1e-16 : ℝ) < ‖((Real.sqrt 2 / 2 : ℝ) : ℂ)‖; rw [h1]; exact this)
        | (show (1e-16 : ℝ) < ‖-(Complex.I * ((Real.sqrt 2 / 2 : ℝ) : ℂ))‖; rw [h2]; exact this)

theorem exact_H (t : ℕ) : ExactGate (gH t) := (C08_hypotheses_constant_gates (make_H t 0) rfl).1
theorem exact_I (t : ℕ) : ExactGate (gI t) := (C08_hypotheses_constant_gates (make_I t 0) rfl).1

/-- the rotation the code uses for each letter -/
noncomputable def rotOf (g : Gate) : Gate :=
  if g.label = "Z" then gI g.target else if g.label = "X" then gH g.target else gRxh g.target

theorem rotOf_target (g : Gate) : (rotOf g).target = g.target ∧ (rotOf g).control = g.target := by
  unfold rotOf; split_ifs <;> exact ⟨rfl, rfl⟩

theorem rotOf_exact (g : Gate) : ExactGate (rotOf g) := by
  unfold rotOf; split_ifs
  · exact exact_I _
  · exact exact_H _
  · exact exact_Rxh _

theorem rotator_eq {c : Circuit} (h : ∀ g ∈ c, IsXYZ g.label) : basisRotator c = .ok (c.map rotOf) := by
  have key : ∀ (c : Circuit) (acc : Circuit), (∀ g ∈ c, IsXYZ g.label) → c.foldlM (fun rot g =>
    if g.label = "Z" then (do
      let t ← makeGate "I" g.target g.target 0
      pure (rot ++ [t]) : Except Exc Circuit)
    else if g.label = "X" then do
      let t ← makeGate "H" g.target g.target 0
      pure (rot ++ [t])
    else if g.label = "Y" then do
      let t ← makeGate "Rx" g.target g.target (Real.pi / 2)
      pure (rot ++ [t])
    else pure rot) acc = .ok (acc ++ c.map rotOf) := by
    intro c
    induction c with
    | nil => intro acc _; simp [pure, Except.pure]
    | cons g c ih =>
      intro acc h
      rw [List.foldlM_cons]
      have ih' := fun a => ih a (fun x hx => h x (by simp [hx]))
      rcases h g (by simp) with e | e | e
      · rw [if_neg (by rw [e]; decide), if_pos e, make_H]
        simp only [except_ok_bind, pure, Except.pure]
        erw [ih']
        simp [rotOf, e]
      · rw [if_neg (by rw [e]; decide), if_neg (by rw [e]; decide), if_pos e, make_Rxh]
        simp only [except_ok_bind, pure, Except.pure]
        erw [ih']
        simp [rotOf, e]
      · rw [if_pos e, make_I]
        simp only [except_ok_bind, pure, Except.pure]
        erw [ih']
        simp [rotOf, e]
  have := key c [] h
  simpa [basisRotator] using this

/-- every gate of the rotator of an arbitrary circuit -/
theorem rot_fits {n : ℕ} {c : Circuit} (h : c.Fits n) : Circuit.Fits n (c.map rotOf) := by
  intro g hg
  obtain ⟨x, hx, rfl⟩ := List.mem_map.1 hg
  rw [(rotOf_target x).1, (rotOf_target x).2]
  exact ⟨(h x hx).1, (h x hx).1⟩

theorem rot_intertwine {g : Gate} (h : PauliGate g) : opZ g.target * (rotOf g).op = (rotOf g).op * g.op := by
  have key : ∀ (t : ℕ) (a b c d a' b' c' d' : ℂ), M2.mul mZ (m2 a b c d) = M2.mul (m2 a b c d) (m2 a' b' c' d') →
      opZ t * matOp t t (mat1 a b c d) = matOp t t (mat1 a b c d) * matOp t t (mat1 a' b' c' d') := by
    intro t a b c d a' b' c' d' h
    rw [matOp_mat1, matOp_mat1, opZ, op1_mul, op1_mul, h]
  rcases h.cases with e | e | e
  · have : rotOf g = gH g.target := by unfold rotOf; rw [e]; rfl
    rw [this]; generalize g.target = t at e; subst e
    refine key _ _ _ _ _ _ _ _ _ ?_
    funext a b
    cases a <;> cases b <;> simp [M2.mul, mZ, m2]
  · have : rotOf g = gRxh g.target := by unfold rotOf; rw [e]; rfl
    rw [this]; generalize g.target = t at e; subst e
    refine key _ _ _ _ _ _ _ _ _ ?_
    have hI : ∀ a : ℂ, Complex.I * (Complex.I * a) = - a := by intro a; rw [← mul_assoc, Complex.I_mul_I]; ring
    funext a b
    rw [rxh_cos, rxh_sin]
    cases a <;> cases b <;> simp [M2.mul, mZ, m2, hI, mul_comm]
  · have : rotOf g = gI g.target := by unfold rotOf; rw [e]; rfl
    rw [this]; generalize g.target = t at e; subst e
    refine key _ _ _ _ _ _ _ _ _ ?_
    funext a b
    cases a <;> cases b <;> simp [M2.mul, mZ, m2]

/-- `∏ Z` over the qubits of a string -/
noncomputable def zString : Circuit → Op
  | [] => 1
  | g :: c => zString c * opZ g.target

theorem rotOf_op (g : Gate) : ∃ m, (rotOf g).op = op1 g.target m := by
  unfold rotOf; split_ifs <;> exact ⟨_, matOp_mat1 _ _ _ _ _⟩

theorem zString_rot {c : Circuit} (hp : ∀ g ∈ c, PauliGate g) (hn : (c.map Gate.target).Nodup) :
    zString c * Circuit.op (c.map rotOf) = Circuit.op (c.map rotOf) * c.op := by
  induction c with
  | nil => rfl
  | cons g c ih =>
    rw [List.map_cons, List.nodup_cons] at hn
    have ih' := ih (fun x hx => hp x (by simp [hx])) hn.2
    have hne : ∀ x ∈ c, g.target ≠ x.target := fun x hx e => hn.1 (e ▸ List.mem_map_of_mem hx)
    have c1 : ∀ (d : Circuit), (∀ x ∈ d, g.target ≠ x.target) → ∀ m, Commute (op1 g.target m) (Circuit.op (d.map rotOf)) := by
      intro d hd m
      induction d with
      | nil => exact Commute.one_right _
      | cons x d ihd =>
        obtain ⟨m', hm'⟩ := rotOf_op x
        rw [List.map_cons, Circuit.op_cons, hm']
        exact (ihd (fun y hy => hd y (by simp [hy]))).mul_right (op1_comm (hd x (by simp)) _ _)
    have c2 : ∀ (d : Circuit), (∀ x ∈ d, PauliGate x) → (∀ x ∈ d, g.target ≠ x.target) → ∀ m, Commute (op1 g.target m) (Circuit.op d) := by
      intro d hd2 hd m
      induction d with
      | nil => exact Commute.one_right _
      | cons x d ihd =>
        rw [Circuit.op_cons]
        refine (ihd (fun y hy => hd2 y (by simp [hy])) (fun y hy => hd y (by simp [hy]))).mul_right ?_
        rcases (hd2 x (by simp)).cases with e | e | e <;> rw [e] <;> simp only [op_gX, op_gY, op_gZ] <;> exact op1_comm (hd x (by simp)) _ _
    obtain ⟨m, hm⟩ := rotOf_op g
    have k1 := (c1 c hne mZ).eq
    have k2 := (c2 c (fun x hx => hp x (by simp [hx])) hne m).eq
    have k3 := rot_intertwine (hp g (by simp))
    rw [List.map_cons, Circuit.op_cons, Circuit.op_cons, zString]
    calc zString c * opZ g.target * (Circuit.op (c.map rotOf) * (rotOf g).op)
        = zString c * (opZ g.target * Circuit.op (c.map rotOf)) * (rotOf g).op := by simp only [mul_assoc]
      _ = zString c * Circuit.op (c.map rotOf) * (opZ g.target * (rotOf g).op) := by
          rw [show opZ g.target = op1 g.target mZ from rfl, k1]; simp only [mul_assoc]
      _ = Circuit.op (c.map rotOf) * ((Circuit.op c * (rotOf g).op) * g.op) := by rw [ih', k3]; simp only [mul_assoc]
      _ = Circuit.op (c.map rotOf) * (rotOf g).op * (Circuit.op c * g.op) := by
          rw [hm, ← k2]; simp only [mul_assoc]

theorem foldl_mul_prod : ∀ (l : List Gate) (f : Gate → ℝ) (a : ℝ), l.foldl (fun v g => v * f g) a = a * (l.map f).prod := by
  intro l
  induction l with
  | nil => intro f a; simp
  | cons g l ih => intro f a; rw [List.foldl_cons, ih, List.map_cons, List.prod_cons, mul_assoc]

theorem signValue_cons (g : Gate) (c : Circuit) (k : ℕ) : signValue (g :: c) k = (1 - 2 * (if k.testBit g.target then 1 else 0)) * signValue c k := by
  unfold signValue
  rw [foldl_mul_prod _ (fun g => (1 - 2 * (if k.testBit g.target then (1 : ℝ) else 0))), foldl_mul_prod _ (fun g => (1 - 2 * (if k.testBit g.target then (1 : ℝ) else 0)))]
  simp

theorem zString_apply (c : Circuit) (ψ : St) (k : ℕ) : zString c ψ k = (signValue c k : ℂ) * ψ k := by
  induction c generalizing ψ with
  | nil => simp [zString, signValue]
  | cons g c ih =>
    rw [zString, Module.End.mul_apply, ih, signValue_cons, opZ_apply]
    push_cast
    by_cases h : k.testBit g.target <;> simp [h] <;> ring

theorem signValue_pm (c : Circuit) (k : ℕ) : signValue c k = 1 ∨ signValue c k = -1 := by
  induction c with
  | nil => left; rfl
  | cons g c ih =>
    rw [signValue_cons]
    by_cases h : k.testBit g.target <;> rcases ih with e | e <;> rw [e] <;> simp [h] <;> norm_num

/-- `∏ (-1)^{bit}`: the parity of the bits on the qubits of the string -/
theorem signValue_eq (c : Circuit) (k : ℕ) : signValue c k = (-1) ^ (c.countP fun g => k.testBit g.target) := by
  induction c with
  | nil => rfl
  | cons g c ih =>
    rw [signValue_cons, ih, List.countP_cons]
    by_cases h : k.testBit g.target <;> simp [h, pow_succ] <;> ring

end QF
