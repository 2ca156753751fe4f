import Verif.Lemmas.GateSem

/-! Commutation of one- and two-qubit operators. -/
namespace QF

/-- matrices commute -/
def M2.Comm (m m' : M2) : Prop := M2.mul m m' = M2.mul m' m

theorem M2.Comm.symm {m m' : M2} (h : M2.Comm m m') : M2.Comm m' m := Eq.symm h

theorem op1_comm_same (t : ℕ) {m m' : M2} (h : M2.Comm m m') : Commute (op1 t m) (op1 t m') := by
  show _ * _ = _ * _
  rw [op1_mul, op1_mul, h]

theorem op1_comm' {t s : ℕ} {m m' : M2} (h : t = s → M2.Comm m m') : Commute (op1 t m) (op1 s m') := by
  by_cases hts : t = s
  · subst hts; exact op1_comm_same t (h rfl)
  · exact op1_comm hts m m'

theorem M2.IsDiag.comm {m m' : M2} (h : m.IsDiag) (h' : m'.IsDiag) : M2.Comm m m' := by
  funext a b
  obtain ⟨h1, h2⟩ := h
  obtain ⟨h3, h4⟩ := h'
  cases a <;> cases b <;> simp [M2.mul, h1, h2, h3, h4] <;> ring

def projM (b : Bool) : M2 := fun x y => if x = b ∧ y = b then 1 else 0
theorem projM_diag (b : Bool) : (projM b).IsDiag := by cases b <;> simp [projM, M2.IsDiag]
theorem proj_eq (c : ℕ) (b : Bool) : proj c b = op1 c (projM b) := rfl

theorem proj_comm (c c' : ℕ) (b b' : Bool) : Commute (proj c b) (proj c' b') :=
  op1_comm' fun _ => (projM_diag b).comm (projM_diag b')

theorem proj_op1_comm {c t : ℕ} (b : Bool) {m : M2} (h : c = t → m.IsDiag) : Commute (proj c b) (op1 t m) :=
  op1_comm' fun e => (projM_diag b).comm (h e)

theorem commute_ctrl {A U : Op} {c : ℕ} (b : Bool) (h : ∀ x, Commute A (proj c x)) (hU : Commute A U) :
    Commute A (ctrlOp c b U) := (h _).add_right ((h _).mul_right hU)

/-- a one-qubit operator and a controlled one -/
theorem op1_ctrl_comm {s t c : ℕ} {m m' : M2} (b : Bool) (hc : s = c → m.IsDiag) (ht : s = t → M2.Comm m m') :
    Commute (op1 s m) (ctrlOp c b (op1 t m')) :=
  commute_ctrl b (fun x => (proj_op1_comm x (fun e => hc e.symm)).symm) (op1_comm' ht)

/-- two controlled one-qubit operators -/
theorem ctrl_ctrl_comm {t c t' c' : ℕ} {m m' : M2} (b b' : Bool) (h1 : c = t' → m'.IsDiag)
    (h2 : c' = t → m.IsDiag) (h3 : t = t' → M2.Comm m m') :
    Commute (ctrlOp c b (op1 t m)) (ctrlOp c' b' (op1 t' m')) := by
  apply commute_ctrl
  · intro x
    exact (commute_ctrl b (fun y => proj_comm _ _ _ _) (proj_op1_comm x h2)).symm
  · exact (commute_ctrl b (fun y => (proj_op1_comm y h1).symm) (op1_comm' (fun e => (h3 e.symm).symm))).symm

/-- elementary operator `|a⟩⟨x|` on qubit `k` -/
def elem (k : ℕ) (a x : Bool) : Op := op1 k (fun u v => if u = a ∧ v = x then 1 else 0)

theorem elem_apply (k : ℕ) (a x : Bool) (ψ : St) (I : ℕ) :
    elem k a x ψ I = if I.testBit k = a then ψ (setBit I k x) else 0 := by
  simp only [elem, op1_apply]
  cases h : I.testBit k <;> cases a <;> cases x <;> simp

theorem op2_eq_sum {t c : ℕ} (h : t ≠ c) (m : M4) :
    op2 t c m = ∑ a, ∑ b, ∑ x, ∑ y, m a b x y • (elem c a x * elem t b y) := by
  apply Op.ext'; intro ψ I
  simp only [Fintype.sum_bool, LinearMap.add_apply, LinearMap.smul_apply, Pi.add_apply, Pi.smul_apply,
    Module.End.mul_apply, elem_apply, smul_eq_mul, testBit_setBit, h, if_false, op2_apply]
  cases h1 : I.testBit c <;> cases h2 : I.testBit t <;> simp <;> ring

theorem op2_comm_of {A : Op} {t c : ℕ} (htc : t ≠ c) (m : M4) (ht : ∀ m', Commute A (op1 t m'))
    (hc : ∀ m', Commute A (op1 c m')) : Commute A (op2 t c m) := by
  rw [op2_eq_sum htc]
  refine Commute.sum_right _ _ _ fun a _ => Commute.sum_right _ _ _ fun b _ =>
    Commute.sum_right _ _ _ fun x _ => Commute.sum_right _ _ _ fun y _ => Commute.smul_right ?_ _
  exact (hc _).mul_right (ht _)

theorem matOp_comm_op1 {s t c : ℕ} (m : M2) (m' : Mat4) (h1 : s ≠ t) (h2 : s ≠ c) :
    Commute (op1 s m) (matOp t c m') := by
  unfold matOp
  split_ifs with htc
  · exact op1_comm h1 _ _
  · exact op2_comm_of htc _ (fun _ => op1_comm h1 _ _) (fun _ => op1_comm h2 _ _)

/-- operators on disjoint sets of qubits commute -/
theorem matOp_comm_disjoint {t c t' c' : ℕ} (m m' : Mat4) (h1 : t ≠ t') (h2 : t ≠ c') (h3 : c ≠ t') (h4 : c ≠ c') :
    Commute (matOp t c m) (matOp t' c' m') := by
  by_cases htc : t = c
  · rw [matOp, if_pos htc]; exact matOp_comm_op1 _ _ h1 h2
  · rw [matOp, if_neg htc]
    exact (op2_comm_of htc _ (fun _ => (matOp_comm_op1 _ _ h1 h2).symm) (fun _ => (matOp_comm_op1 _ _ h3 h4).symm)).symm

/-! ### families of commuting matrices -/

/-- the family of a one-qubit gate type: 1 = functions of X, 2 = functions of Y, 3 = diagonal, 4 = H -/
def fam : GateType → ℕ
  | .X => 1 | .Rx => 1 | .V => 1 | .adjV => 1
  | .Y => 2 | .Ry => 2
  | .Z => 3 | .S => 3 | .T => 3 | .Rz => 3 | .R => 3
  | .H => 4
  | _ => 0

theorem fam_of_pair {a b : GateType} (h : pairCommute a b = true) : fam a = fam b ∧ fam a ≠ 0 := by
  revert h; cases a <;> cases b <;> decide

theorem diag_of_fam {a : GateType} (h : fam a = 3) (p : ℝ) : (typeM a p).IsDiag := by
  cases a <;> first | (exact absurd h (by decide)) | exact ⟨rfl, rfl⟩

theorem diag_of_isDiag1 {a : GateType} (h : isDiag1 a = true) (p : ℝ) : (typeM a p).IsDiag := by
  apply diag_of_fam
  revert h; cases a <;> decide

theorem famX {a : GateType} (h : fam a = 1) (p : ℝ) : ∃ x y, typeM a p = m2 x y y x := by
  cases a <;> first | (exact absurd h (by decide)) | exact ⟨_, _, rfl⟩

theorem famY {a : GateType} (h : fam a = 2) (p : ℝ) : ∃ x y, typeM a p = m2 x (-y) y x := by
  cases a <;> first | (exact absurd h (by decide)) | exact ⟨_, _, rfl⟩

theorem famH {a : GateType} (h : fam a = 4) : a = .H := by
  revert h; cases a <;> decide

theorem pair_comm {a b : GateType} (h : pairCommute a b = true) (p q : ℝ) : M2.Comm (typeM a p) (typeM b q) := by
  obtain ⟨h1, h2⟩ := fam_of_pair h
  have hc : fam a = 1 ∨ fam a = 2 ∨ fam a = 3 ∨ fam a = 4 := by
    revert h2; cases a <;> decide
  rcases hc with hc | hc | hc | hc
  · obtain ⟨x, y, e⟩ := famX hc p
    obtain ⟨x', y', e'⟩ := famX (h1 ▸ hc) q
    rw [e, e']; funext u v; cases u <;> cases v <;> simp [M2.mul, m2] <;> ring
  · obtain ⟨x, y, e⟩ := famY hc p
    obtain ⟨x', y', e'⟩ := famY (h1 ▸ hc) q
    rw [e, e']; funext u v; cases u <;> cases v <;> simp [M2.mul, m2] <;> ring
  · exact (diag_of_fam hc p).comm (diag_of_fam (h1 ▸ hc) q)
  · have e1 := famH hc
    have e2 := famH (h1 ▸ hc : fam b = 4)
    subst e1 e2; rfl

/-! ### cZ, cR, SWAP, A on the same pair of qubits -/

theorem testBit_swapBits (I : ℕ) {t c : ℕ} (h : t ≠ c) (k : ℕ) :
    (swapBits I t c).testBit k = if k = t then I.testBit c else if k = c then I.testBit t else I.testBit k := by
  unfold swapBits
  simp only [testBit_setBit]
  by_cases h1 : k = t
  · subst h1; simp [h]
  · by_cases h2 : k = c
    · subst h2; simp [h1]
    · simp [h1, h2]

theorem swapBits_comm (I t c : ℕ) : swapBits I t c = swapBits I c t := by
  by_cases h : t = c
  · subst h; rfl
  · unfold swapBits; rw [setBit_comm _ h]

/-- a phase `w` on `|11⟩` of qubits `t`, `c` -/
def phase11 (t c : ℕ) (w : ℂ) : Op := ctrlOp c true (op1 t (m2 1 0 0 w))

theorem phase11_apply (t c : ℕ) (w : ℂ) (ψ : St) (I : ℕ) :
    phase11 t c w ψ I = (if I.testBit c ∧ I.testBit t then w else 1) * ψ I := by
  unfold phase11
  simp only [ctrlOp_apply, op1_m2_apply]
  cases h1 : I.testBit c <;> cases h2 : I.testBit t <;> simp

theorem phase11_symm (t c : ℕ) (w : ℂ) : phase11 t c w = phase11 c t w := by
  apply Op.ext'; intro ψ I
  simp only [phase11_apply, and_comm]

theorem phase11_comm (t c : ℕ) (w w' : ℂ) : Commute (phase11 t c w) (phase11 t c w') := by
  apply Op.ext'; intro ψ I
  simp only [Module.End.mul_apply, phase11_apply]; ring

theorem phase11_swap {t c : ℕ} (h : t ≠ c) (w : ℂ) : Commute (phase11 t c w) (swapOp t c) := by
  apply Op.ext'; intro ψ I
  simp only [Module.End.mul_apply, phase11_apply, swapOp, LinearMap.coe_mk, AddHom.coe_mk,
    testBit_swapBits I h, if_true, h.symm, if_false]
  simp only [and_comm]

theorem phase11_aOp {t c : ℕ} (h : t ≠ c) (w : ℂ) (θ : ℝ) : Commute (phase11 t c w) (aOp t c θ) := by
  apply Op.ext'; intro ψ I
  simp only [Module.End.mul_apply, phase11_apply, aOp, LinearMap.coe_mk, AddHom.coe_mk,
    testBit_swapBits I h, if_true, h.symm, if_false]
  cases h1 : I.testBit c <;> cases h2 : I.testBit t <;> simp

theorem swapOp_symm (t c : ℕ) : swapOp t c = swapOp c t := by
  apply Op.ext'; intro ψ I
  simp only [swapOp, LinearMap.coe_mk, AddHom.coe_mk, swapBits_comm]

theorem swapOp_sq {t c : ℕ} (h : t ≠ c) : swapOp t c * swapOp t c = 1 := by
  apply Op.ext'; intro ψ I
  simp only [Module.End.mul_apply, swapOp, LinearMap.coe_mk, AddHom.coe_mk, Module.End.one_apply]
  congr 1
  apply Nat.eq_of_testBit_eq
  intro k
  simp only [testBit_swapBits _ h]
  by_cases h1 : k = t
  · subst h1; simp [h.symm]
  · by_cases h2 : k = c
    · subst h2; simp [h1]
    · simp [h1, h2]

end QF
