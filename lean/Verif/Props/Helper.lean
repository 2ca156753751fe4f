import Verif.Model.Helper
import Verif.Lemmas.QFT
import Verif.Lemmas.Fermion

/-!
C58: the three-qubit helper circuits.
-/
namespace QF

theorem flip_flip (I t : ℕ) : flipBit (flipBit I t) t = I := by
  apply eq_of_bits; intro q; simp

theorem cx_apply (t c : ℕ) (ψ : St) (I : ℕ) : ctrlOp c true (opX t) ψ I = if I.testBit c then ψ (flipBit I t) else ψ I := by
  rw [ctrlOp_apply, opX_apply]

theorem phase_apply (t : ℕ) (θ : ℝ) (ψ : St) (I : ℕ) :
    phaseOp t θ ψ I = if I.testBit t then Complex.exp (Complex.I * θ) * ψ I else ψ I := by
  unfold phaseOp
  simp only [LinearMap.add_apply, LinearMap.smul_apply, Pi.add_apply, Pi.smul_apply, proj_apply, smul_eq_mul]
  cases I.testBit t <;> simp

theorem op_inv_unique {A B C : Op} (h1 : A * B = 1) (h2 : B * C = 1) : A = C := by
  calc A = A * (B * C) := by rw [h2, mul_one]
    _ = C := by rw [← mul_assoc, h1, one_mul]

theorem const_gate {ty : String} {t c : ℕ} {g : Gate} (hm : makeGate ty t c 0 = .ok g) (hp : g.param = none) :
    (ApiGate g ∧ ExactGate g ∧ g.target = t ∧ g.control = c) ∧ (ApiGate g.adjoint ∧ ExactGate g.adjoint ∧ g.adjoint.target = t ∧ g.adjoint.control = c) := by
  have e := C08_hypotheses_constant_gates hm hp
  have s := makeGate_spec hm
  exact ⟨⟨.make hm, e.1, s.2.1, s.2.2.1⟩, .adj (.make hm), e.2, (adjoint_target g).1.trans s.2.1, (adjoint_target g).2.trans s.2.2.1⟩

theorem const_T {t : ℕ} {g : Gate} (hm : makeGate "T" t t 0 = .ok g) : g.param = none := by
  have := makeGate_of_made (.T t 0)
  rw [hm] at this; injection this with this; rw [this]
theorem const_CV {t c : ℕ} (h : t ≠ c) {g : Gate} (hm : makeGate "cV" t c 0 = .ok g) : g.param = none := by
  have := makeGate_of_made (.cV t c 0 h)
  rw [hm] at this; injection this with this; rw [this]
theorem exact_CX {t c : ℕ} (h : t ≠ c) : ExactGate (gCX t c) := (C08_hypotheses_constant_gates (make_CX h 0) rfl).1

theorem py_T (t : ℕ) : ∃ g, pyGate2 "T" t t = .ok g ∧ makeGate "T" t t 0 = .ok g ∧ g.op = phaseOp t (Real.pi / 4) ∧
    g.adjoint.op = phaseOp t (-(Real.pi / 4)) := by
  obtain ⟨g, hg⟩ := makeGate_ok_of_name (ty := "T") (t := t) (c := t) 0 (.inl ⟨rfl, by decide⟩)
  have ho : g.op = phaseOp t (Real.pi / 4) := by
    have := (makeGate_spec hg).2.2.2
    simp [stdGate] at this; rw [← this]
  refine ⟨g, by unfold pyGate2; rw [if_neg (by decide), if_pos ⟨rfl, by decide⟩]; exact hg, hg, ho, ?_⟩
  refine op_inv_unique (api_adjoint_op (.make hg)).1 ?_
  rw [ho]
  apply Op.ext'; intro ψ I
  rw [Module.End.mul_apply, phase_apply, phase_apply]
  split_ifs
  · rw [← mul_assoc, ← Complex.exp_add]; push_cast
    rw [show Complex.I * (Real.pi / 4) + Complex.I * -(Real.pi / 4) = 0 by ring]; simp
  · rfl

theorem sqrtXOp_at (t : ℕ) (ψ : St) (I : ℕ) :
    sqrtXOp t ψ I = ((1 + Complex.I) / 2) * ψ I + ((1 - Complex.I) / 2) * ψ (flipBit I t) := by
  unfold sqrtXOp
  simp only [LinearMap.add_apply, LinearMap.smul_apply, Pi.add_apply, Pi.smul_apply, opX_apply, smul_eq_mul, Module.End.one_apply]

/-- adjoint of `V` -/
noncomputable def sqrtXAdj (t : ℕ) : Op :=
  ((1 - Complex.I) / 2 : ℂ) • (1 : Op) + ((1 + Complex.I) / 2 : ℂ) • opX t

theorem sqrtXAdj_apply (t : ℕ) (ψ : St) (I : ℕ) :
    sqrtXAdj t ψ I = ((1 - Complex.I) / 2) * ψ I + ((1 + Complex.I) / 2) * ψ (flipBit I t) := by
  unfold sqrtXAdj
  simp only [LinearMap.add_apply, LinearMap.smul_apply, Pi.add_apply, Pi.smul_apply, opX_apply, smul_eq_mul, Module.End.one_apply]

theorem py_CV {t c : ℕ} (h : t ≠ c) : ∃ g, pyGate2 "cV" t c = .ok g ∧ makeGate "cV" t c 0 = .ok g ∧ g.op = ctrlOp c true (sqrtXOp t) ∧
    g.adjoint.op = ctrlOp c true (sqrtXAdj t) := by
  obtain ⟨g, hg⟩ := makeGate_ok_of_name (ty := "cV") (t := t) (c := c) 0 (.inr ⟨h, by decide⟩)
  have ho : g.op = ctrlOp c true (sqrtXOp t) := by
    have := (makeGate_spec hg).2.2.2
    simp [stdGate, h] at this; rw [← this]
  refine ⟨g, by unfold pyGate2; rw [if_pos (by decide)]; exact hg, hg, ho, ?_⟩
  refine op_inv_unique (api_adjoint_op (.make hg)).1 ?_
  rw [ho]
  apply Op.ext'; intro ψ I
  simp only [Module.End.mul_apply, ctrlOp_apply, sqrtXOp_at, sqrtXAdj_apply, Module.End.one_apply]
  have h1 : (flipBit I t).testBit c = I.testBit c := by rw [testBit_flipBit, if_neg h.symm]
  rw [h1, flip_flip]
  split_ifs
  · have := Complex.I_sq
    linear_combination ((1/2) * ψ (flipBit I t) - (1/2) * ψ I) * this
  · rfl

theorem swapBits_eq (I j k : ℕ) (h : j ≠ k) : swapBits I j k = if I.testBit j = I.testBit k then I else flipBit (flipBit I j) k := by
  apply eq_of_bits; intro q
  rw [swapBits_testBit _ _ _ _ h]
  split_ifs with h1 h2 h3 h3 h4 <;> simp_all [testBit_flipBit] <;> (cases h5 : I.testBit j <;> cases h6 : I.testBit k <;> simp_all)

/-- the part of the Toffoli circuit between the two Hadamards is the doubly controlled Z -/
theorem toffoli_mid (i j k : ℕ) (hij : i ≠ j) (hik : i ≠ k) (hjk : j ≠ k) (ψ : St) (I : ℕ) :
    (ctrlOp i true (opX j) * phaseOp j (-(Real.pi / 4)) * phaseOp i (Real.pi / 4) * ctrlOp i true (opX j) * phaseOp k (Real.pi / 4) * phaseOp j (Real.pi / 4) *
      ctrlOp i true (opX k) * phaseOp k (-(Real.pi / 4)) * ctrlOp j true (opX k) * phaseOp k (Real.pi / 4) * ctrlOp i true (opX k) *
      phaseOp k (-(Real.pi / 4)) * ctrlOp j true (opX k)) ψ I =
    (if I.testBit i && I.testBit j && I.testBit k then -1 else 1) * ψ I := by
  set w := Complex.exp (Complex.I * ((Real.pi / 4 : ℝ) : ℂ)) with hw
  set w' := Complex.exp (Complex.I * ((-(Real.pi / 4) : ℝ) : ℂ)) with hw'
  have hww : w * w' = 1 := by
    rw [hw, hw', ← Complex.exp_add]; push_cast
    rw [show Complex.I * (Real.pi / 4) + Complex.I * -(Real.pi / 4) = 0 by ring]; simp
  have hww' : w' * w = 1 := by rw [mul_comm, hww]
  have hw4 : w * w * w * w = -1 := by
    rw [hw, ← Complex.exp_add, ← Complex.exp_add, ← Complex.exp_add, ← Complex.exp_pi_mul_I]
    congr 1; push_cast; ring
  have tb : ∀ (J a b : ℕ), a ≠ b → (flipBit J a).testBit b = J.testBit b := fun J a b h => by rw [testBit_flipBit, if_neg h.symm]
  have tb' : ∀ (J a : ℕ), (flipBit J a).testBit a = !J.testBit a := fun J a => by rw [testBit_flipBit, if_pos rfl]
  have fc : ∀ J, flipBit (flipBit J j) k = flipBit (flipBit J k) j := fun J => flipBit_comm _ _ _
  simp only [Module.End.mul_apply, cx_apply, phase_apply, ← hw, ← hw']
  cases h1 : I.testBit i <;> cases h2 : I.testBit j <;> cases h3 : I.testBit k <;>
    simp only [tb, tb', hij, hik, hjk, hij.symm, hik.symm, hjk.symm, h1, h2, h3, flip_flip, fc, ne_eq, not_false_eq_true, Bool.not_true, Bool.not_false, if_true,
      Bool.false_eq_true, if_false, Bool.and_true, Bool.and_false, Bool.true_and, Bool.false_and] <;>
    first | ring1 | linear_combination (1 + w * w') * ψ I * hww | linear_combination ψ I * hw4

theorem had_apply (k : ℕ) (ψ : St) (I : ℕ) : (((1 / Real.sqrt 2 : ℝ) : ℂ) • (opX k + opZ k)) ψ I =
    ((1 / Real.sqrt 2 : ℝ) : ℂ) * (ψ (flipBit I k) + (if I.testBit k then -1 else 1) * ψ I) := by
  simp only [LinearMap.smul_apply, LinearMap.add_apply, Pi.smul_apply, Pi.add_apply, opX_apply, opZ_apply, smul_eq_mul]

theorem had_sq : ((1 / Real.sqrt 2 : ℝ) : ℂ) * ((1 / Real.sqrt 2 : ℝ) : ℂ) = 1 / 2 := by
  rw [← Complex.ofReal_mul, div_mul_div_comm, Real.mul_self_sqrt (by norm_num)]; norm_num

theorem flip_other {a b : ℕ} (J : ℕ) (h : a ≠ b) : (flipBit J a).testBit b = J.testBit b := by
  rw [testBit_flipBit, if_neg h.symm]
theorem flip_same (J a : ℕ) : (flipBit J a).testBit a = !J.testBit a := by rw [testBit_flipBit, if_pos rfl]

/-- Hadamard on qubit `k` -/
noncomputable def hadOp (k : ℕ) : Op := ((1 / Real.sqrt 2 : ℝ) : ℂ) • (opX k + opZ k)
theorem hadOp_apply (k : ℕ) (ψ : St) (I : ℕ) : hadOp k ψ I =
    ((1 / Real.sqrt 2 : ℝ) : ℂ) * (ψ (flipBit I k) + (if I.testBit k then -1 else 1) * ψ I) := had_apply k ψ I

theorem had_cx {i j k : ℕ} (hik : i ≠ k) (hjk : j ≠ k) : ctrlOp i true (opX j) * hadOp k = hadOp k * ctrlOp i true (opX j) := by
  apply Op.ext'; intro ψ I
  simp only [Module.End.mul_apply, cx_apply, hadOp_apply, flip_other _ hik.symm, flip_other _ hjk]
  rw [flipBit_comm I j k]
  split_ifs <;> rfl
theorem had_phase {j k : ℕ} (hjk : j ≠ k) (θ : ℝ) : phaseOp j θ * hadOp k = hadOp k * phaseOp j θ := by
  apply Op.ext'; intro ψ I
  simp only [Module.End.mul_apply, phase_apply, hadOp_apply, flip_other _ hjk.symm]
  generalize Complex.exp (Complex.I * θ) = e
  split_ifs <;> ring

theorem had_ccz {i j k : ℕ} (hik : i ≠ k) (hjk : j ≠ k) (M : Op)
    (hM : ∀ ψ I, M ψ I = (if I.testBit i && I.testBit j && I.testBit k then -1 else 1) * ψ I) :
    hadOp k * (M * hadOp k) = ctrlOp i true (ctrlOp j true (opX k)) := by
  apply Op.ext'; intro ψ I
  simp only [Module.End.mul_apply, hadOp_apply, hM, ctrlOp_apply, opX_apply, flip_flip, flip_same, flip_other _ hik.symm, flip_other _ hjk.symm]
  have := had_sq
  generalize ((1 / Real.sqrt 2 : ℝ) : ℂ) = s at *
  cases I.testBit i <;> cases I.testBit j <;> cases I.testBit k <;> simp <;>
    first | linear_combination 2 * ψ I * this | linear_combination 2 * ψ (flipBit I k) * this

theorem toffoli_op (i j k : ℕ) (hij : i ≠ j) (hik : i ≠ k) (hjk : j ≠ k) :
    ctrlOp i true (opX j) * (phaseOp j (-(Real.pi / 4)) * (phaseOp i (Real.pi / 4) * (hadOp k * (ctrlOp i true (opX j) * (phaseOp k (Real.pi / 4) * (phaseOp j (Real.pi / 4) *
      (ctrlOp i true (opX k) * (phaseOp k (-(Real.pi / 4)) * (ctrlOp j true (opX k) * (phaseOp k (Real.pi / 4) * (ctrlOp i true (opX k) *
      (phaseOp k (-(Real.pi / 4)) * (ctrlOp j true (opX k) * hadOp k))))))))))))) = ctrlOp i true (ctrlOp j true (opX k)) := by
  rw [← had_ccz hik hjk _ (toffoli_mid i j k hij hik hjk), ← mul_assoc (phaseOp i _) (hadOp k), had_phase hik, mul_assoc (hadOp k), ← mul_assoc (phaseOp j _) (hadOp k), had_phase hjk,
    mul_assoc (hadOp k), ← mul_assoc (ctrlOp i true (opX j)) (hadOp k), had_cx hik hjk, mul_assoc (hadOp k)]
  simp only [mul_assoc]

/-- C58: `Toffoli(i, j, k)` on distinct qubits is the doubly controlled NOT, for every state; it is made of API gates
on these qubits, so it runs on every computer that has them. -/
theorem C58_toffoli (i j k : ℕ) (hij : i ≠ j) (hik : i ≠ k) (hjk : j ≠ k) : ∃ C, toffoli i j k = .ok C ∧
    C.op = ctrlOp i true (ctrlOp j true (opX k)) ∧ ∀ g ∈ C, ApiGate g ∧ ExactGate g ∧ g.target ∈ [i, j, k] ∧ g.control ∈ [i, j, k] := by
  obtain ⟨T1, a1, b1, c1, d1⟩ := py_T i
  obtain ⟨T2, a2, b2, c2, d2⟩ := py_T j
  obtain ⟨T3, a3, b3, c3, d3⟩ := py_T k
  refine ⟨[gH k, gCX k j, T3.adjoint, gCX k i, T3, gCX k j, T3.adjoint, gCX k i, T2, T3, gCX j i, gH k, T1, T2.adjoint, gCX j i], ?_, ?_, ?_⟩
  · unfold toffoli
    rw [a1, a2, a3, py_CX hij.symm, py_CX hik.symm, py_CX hjk.symm, py_H]
    simp only [except_ok_bind, pure, Except.pure, List.foldl, Circuit.addGate, List.nil_append, List.cons_append]
  · simp only [Circuit.op_cons, Circuit.op_nil, one_mul, c1, c2, c3, d2, d3, op_gCX hij.symm, op_gCX hik.symm, op_gCX hjk.symm, op_gH, mul_assoc]
    exact toffoli_op i j k hij hik hjk
  · intro g hg
    simp only [List.mem_cons, List.not_mem_nil, or_false] at hg
    have eC : ∀ {t c : ℕ}, t ≠ c → ApiGate (gCX t c) ∧ ExactGate (gCX t c) ∧ (gCX t c).target = t ∧ (gCX t c).control = c := fun h =>
      ⟨.make (make_CX h 0), exact_CX h, rfl, rfl⟩
    have eH : ApiGate (gH k) ∧ ExactGate (gH k) ∧ (gH k).target = k ∧ (gH k).control = k := ⟨.make (make_H k 0), exact_H k, rfl, rfl⟩
    have fin : ∀ {g : Gate} {t c : ℕ}, (ApiGate g ∧ ExactGate g ∧ g.target = t ∧ g.control = c) → t ∈ [i, j, k] → c ∈ [i, j, k] →
        ApiGate g ∧ ExactGate g ∧ g.target ∈ [i, j, k] ∧ g.control ∈ [i, j, k] := fun h1 h2 h3 => ⟨h1.1, h1.2.1, h1.2.2.1 ▸ h2, h1.2.2.2 ▸ h3⟩
    rcases hg with rfl | rfl | rfl | rfl | rfl | rfl | rfl | rfl | rfl | rfl | rfl | rfl | rfl | rfl | rfl
    all_goals first
      | exact fin eH (by simp) (by simp)
      | exact fin (eC hij.symm) (by simp) (by simp)
      | exact fin (eC hik.symm) (by simp) (by simp)
      | exact fin (eC hjk.symm) (by simp) (by simp)
      | exact fin (const_gate b1 (const_T b1) |>.1) (by simp) (by simp)
      | exact fin (const_gate b2 (const_T b2) |>.1) (by simp) (by simp)
      | exact fin (const_gate b3 (const_T b3) |>.1) (by simp) (by simp)
      | exact fin (const_gate b2 (const_T b2) |>.2) (by simp) (by simp)
      | exact fin (const_gate b3 (const_T b3) |>.2) (by simp) (by simp)

theorem fredkin_op (i j k : ℕ) (hij : i ≠ j) (hik : i ≠ k) (hjk : j ≠ k) :
    ctrlOp i true (opX j) * (ctrlOp k true (opX j) * (ctrlOp j true (sqrtXAdj k) * (ctrlOp i true (opX j) * (ctrlOp i true (sqrtXOp k) *
      (ctrlOp j true (sqrtXOp k) * ctrlOp k true (opX j)))))) = ctrlOp i true (swapOp j k) := by
  apply Op.ext'; intro ψ I
  have fc : ∀ J, flipBit (flipBit J j) k = flipBit (flipBit J k) j := fun J => flipBit_comm _ _ _
  have sw : swapOp j k ψ I = ψ (swapBits I j k) := rfl
  have hI := Complex.I_sq
  simp only [Module.End.mul_apply, ctrlOp_apply, opX_apply, sqrtXOp_at, sqrtXAdj_apply, sw, swapBits_eq I j k hjk]
  generalize Complex.I = z at *
  cases h1 : I.testBit i <;> cases h2 : I.testBit j <;> cases h3 : I.testBit k <;>
    simp only [flip_other _ hij, flip_other _ hik, flip_other _ hjk, flip_other _ hij.symm, flip_other _ hik.symm, flip_other _ hjk.symm, flip_same, h1, h2, h3,
      flip_flip, fc, Bool.not_true, Bool.not_false, if_true, Bool.false_eq_true, Bool.true_eq_false, if_false] <;>
    first | rfl | linear_combination (-(1/2) * ψ I + 1/2 * ψ (flipBit (flipBit I k) j)) * hI | linear_combination ((1/2) * ψ I - 1/2 * ψ (flipBit (flipBit I k) j)) * hI

/-- C58: `Fredkin(i, j, k)` on distinct qubits is the controlled exchange of `j` and `k`, for every state. -/
theorem C58_fredkin (i j k : ℕ) (hij : i ≠ j) (hik : i ≠ k) (hjk : j ≠ k) : ∃ C, fredkin i j k = .ok C ∧
    C.op = ctrlOp i true (swapOp j k) ∧ ∀ g ∈ C, ApiGate g ∧ ExactGate g ∧ g.target ∈ [i, j, k] ∧ g.control ∈ [i, j, k] := by
  obtain ⟨A, a1, b1, c1, d1⟩ := py_CV hjk.symm
  obtain ⟨B, a2, b2, c2, d2⟩ := py_CV hik.symm
  refine ⟨[gCX j k, A, B, gCX j i, A.adjoint, gCX j k, gCX j i], ?_, ?_, ?_⟩
  · unfold fredkin
    rw [a1, a2, py_CX hij.symm, py_CX hjk]
    simp only [except_ok_bind, pure, Except.pure, List.foldl, Circuit.addGate, List.nil_append, List.cons_append]
  · simp only [Circuit.op_cons, Circuit.op_nil, one_mul, c1, c2, d1, op_gCX hij.symm, op_gCX hjk, mul_assoc]
    exact fredkin_op i j k hij hik hjk
  · intro g hg
    simp only [List.mem_cons, List.not_mem_nil, or_false] at hg
    have eC : ∀ {t c : ℕ}, t ≠ c → ApiGate (gCX t c) ∧ ExactGate (gCX t c) ∧ (gCX t c).target = t ∧ (gCX t c).control = c := fun h =>
      ⟨.make (make_CX h 0), exact_CX h, rfl, rfl⟩
    have fin : ∀ {g : Gate} {t c : ℕ}, (ApiGate g ∧ ExactGate g ∧ g.target = t ∧ g.control = c) → t ∈ [i, j, k] → c ∈ [i, j, k] →
        ApiGate g ∧ ExactGate g ∧ g.target ∈ [i, j, k] ∧ g.control ∈ [i, j, k] := fun h1 h2 h3 => ⟨h1.1, h1.2.1, h1.2.2.1 ▸ h2, h1.2.2.2 ▸ h3⟩
    rcases hg with rfl | rfl | rfl | rfl | rfl | rfl | rfl
    all_goals first
      | exact fin (eC hij.symm) (by simp) (by simp)
      | exact fin (eC hjk) (by simp) (by simp)
      | exact fin (const_gate b1 (const_CV hjk.symm b1) |>.1) (by simp) (by simp)
      | exact fin (const_gate b2 (const_CV hik.symm b2) |>.1) (by simp) (by simp)
      | exact fin (const_gate b1 (const_CV hjk.symm b1) |>.2) (by simp) (by simp)

/-- C58 on the simulator: on every well-formed computer that has the qubits, in every state, both circuits run and
have the stated effect on every amplitude. -/
theorem C58_run {q : Computer} (hq : q.WF) {i j k : ℕ} (hij : i ≠ j) (hik : i ≠ k) (hjk : j ≠ k)
    (hi : i < q.nqubit) (hj : j < q.nqubit) (hk : k < q.nqubit) : ∃ T F qT qF,
    toffoli i j k = .ok T ∧ fredkin i j k = .ok F ∧ q.applyCircuit T = .ok qT ∧ q.applyCircuit F = .ok qF ∧
    (∀ I, qT.psi I = if I.testBit i ∧ I.testBit j then q.psi (flipBit I k) else q.psi I) ∧
    (∀ I, qF.psi I = if I.testBit i then q.psi (swapBits I j k) else q.psi I) := by
  obtain ⟨T, t1, t2, t3⟩ := C58_toffoli i j k hij hik hjk
  obtain ⟨F, f1, f2, f3⟩ := C58_fredkin i j k hij hik hjk
  have fit : ∀ x ∈ [i, j, k], x < q.nqubit := by simp [hi, hj, hk]
  obtain ⟨qT, a1, _, _, a2⟩ := applyCircuit_exact T hq (fun g hg => ⟨fit _ (t3 g hg).2.2.1, fit _ (t3 g hg).2.2.2⟩) fun g hg => (t3 g hg).2.1
  obtain ⟨qF, b1, _, _, b2⟩ := applyCircuit_exact F hq (fun g hg => ⟨fit _ (f3 g hg).2.2.1, fit _ (f3 g hg).2.2.2⟩) fun g hg => (f3 g hg).2.1
  refine ⟨T, F, qT, qF, t1, f1, a1, b1, fun I => ?_, fun I => ?_⟩
  · rw [a2, t2, ctrlOp_apply, ctrlOp_apply, opX_apply]
    split_ifs <;> simp_all
  · rw [b2, f2, ctrlOp_apply]; rfl

/-- C58, a concrete case: the circuits on qubits 2, 0, 1 map |101⟩ to |111⟩ and to |110⟩. -/
theorem C58_example : ∃ T F, toffoli 2 0 1 = .ok T ∧ fredkin 2 0 1 = .ok F ∧
    T.op (Pi.single 5 1) 7 = 1 ∧ F.op (Pi.single 5 1) 6 = 1 := by
  obtain ⟨T, t1, t2, t3⟩ := C58_toffoli 2 0 1 (by decide) (by decide) (by decide)
  obtain ⟨F, f1, f2, f3⟩ := C58_fredkin 2 0 1 (by decide) (by decide) (by decide)
  refine ⟨T, F, t1, f1, ?_, ?_⟩
  · rw [t2, ctrlOp_apply, ctrlOp_apply, opX_apply, if_pos (by decide), if_pos (by decide), show flipBit 7 1 = 5 by decide]; simp
  · rw [f2, ctrlOp_apply, if_pos (by decide)]
    change (Pi.single 5 1 : St) (swapBits 6 0 1) = 1
    rw [show swapBits 6 0 1 = 5 by decide]; simp

theorem py_same_raises {ty : String} (h : ty = "cX" ∨ ty = "cV") (t : ℕ) : ∃ e, pyGate2 ty t t = .error e := by
  cases h' : pyGate2 ty t t with
  | error e => exact ⟨e, rfl⟩
  | ok g =>
    exfalso
    unfold pyGate2 at h'
    rcases h with rfl | rfl <;> rw [if_pos (by decide)] at h' <;>
      · have := (makeGate_spec h').2.2.2
        simp [stdGate] at this

theorem bind_err {α β : Type} {x : Except Exc α} {f : α → Except Exc β} (h : ∃ e, x = .error e) : ∃ e, (x >>= f) = .error e := by
  obtain ⟨e, rfl⟩ := h; exact ⟨e, rfl⟩
theorem bind_err2 {α β : Type} {x : Except Exc α} {f : α → Except Exc β} (h : ∀ a, ∃ e, f a = .error e) : ∃ e, (x >>= f) = .error e := by
  cases x with
  | error e => exact ⟨e, rfl⟩
  | ok a => exact h a

/-- C58: with a repeated qubit both helpers raise (no circuit is returned). -/
theorem C58_repeated_raises (i j k : ℕ) (h : i = j ∨ i = k ∨ j = k) :
    (∃ e, toffoli i j k = .error e) ∧ ∃ e, fredkin i j k = .error e := by
  refine ⟨?_, ?_⟩
  · unfold toffoli
    refine bind_err2 fun _ => bind_err2 fun _ => bind_err2 fun _ => ?_
    rcases h with rfl | rfl | rfl
    · exact bind_err (py_same_raises (.inl rfl) _)
    · exact bind_err2 fun _ => bind_err (py_same_raises (.inl rfl) _)
    · exact bind_err2 fun _ => bind_err2 fun _ => bind_err (py_same_raises (.inl rfl) _)
  · unfold fredkin
    rcases h with rfl | rfl | rfl
    · exact bind_err (py_same_raises (.inl rfl) _)
    · exact bind_err2 fun _ => bind_err2 fun _ => bind_err2 fun _ => bind_err (py_same_raises (.inr rfl) _)
    · exact bind_err2 fun _ => bind_err (py_same_raises (.inl rfl) _)

end QF
