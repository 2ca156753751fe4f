import Verif.Model.ComputerOps
import Verif.Lemmas.Exact
import Verif.Lemmas.QubitOperator

namespace QF

theorem addVec_ok : ∀ {r c : List ℂ}, r.length ≤ c.length →
    ∃ l, addVec r c = .ok l ∧ l.length = r.length ∧ ∀ I, I < r.length → vec l I = vec r I + vec c I := by
  intro r
  induction r with
  | nil => intro c _; exact ⟨[], rfl, rfl, by simp⟩
  | cons a r ih =>
    intro c h
    cases c with
    | nil => simp at h
    | cons b c =>
      obtain ⟨l, e, h1, h2⟩ := ih (c := c) (by simpa using h)
      refine ⟨(a + b) :: l, by simp [addVec, e], by simp [h1], ?_⟩
      intro I hI
      cases I with
      | zero => simp [vec]
      | succ I => simpa [vec] using h2 I (by simpa using hI)

theorem vec_map_mul (l : List ℂ) (a : ℂ) : vec (l.map fun z => z * a) = a • vec l := by
  funext I
  simp only [vec, Pi.smul_apply, smul_eq_mul, List.getD_eq_getElem?_getD, List.getElem?_map]
  cases l[I]? <;> simp [mul_comm]

theorem vec_map_zero (l : List ℂ) : vec (l.map fun _ => 0) = 0 := by
  funext I
  simp only [vec, Pi.zero_apply, List.getD_eq_getElem?_getD, List.getElem?_map]
  cases l[I]? <;> simp

theorem vec_replicate_zero (n : ℕ) : vec (List.replicate n 0) = 0 := by
  funext I
  simp only [vec, Pi.zero_apply, List.getD_eq_getElem?_getD, List.getElem?_replicate]
  split_ifs <;> simp

theorem QubitOperator.op_cons (t : ℂ × Circuit) (A : QubitOperator) : QubitOperator.op (t :: A) = t.1 • t.2.op + QubitOperator.op A := by
  simp [QubitOperator.op]

theorem applyOperator_loop {old : List ℂ} : ∀ (A : QubitOperator) (q : Computer) (res : List ℂ), q.WF → q.coeff = old →
    res.length = 2 ^ q.nqubit →
    (∀ t ∈ A, t.2.Fits q.nqubit ∧ ∀ g ∈ t.2, ExactGate g) →
    ∃ q' r, A.foldlM (fun (s : Computer × List ℂ) t => do
      let q1 ← s.1.applyCircuit t.2
      let q2 := q1.applyConstant t.1
      let r ← addVec s.2 q2.coeff
      pure ({ q2 with coeff := old }, r)) (q, res) = Except.ok (ε := Exc) (q', r) ∧ q'.WF ∧ q'.nqubit = q.nqubit ∧ r.length = 2 ^ q.nqubit ∧
      vec r = vec res + A.op (vec old) := by
  intro A
  induction A with
  | nil =>
    intro q res hq _ hr _
    refine ⟨q, res, rfl, hq, rfl, hr, ?_⟩
    simp [QubitOperator.op]
  | cons t A ih =>
    intro q res hq ho hr hA
    obtain ⟨hf, hg⟩ := hA t (by simp)
    obtain ⟨q1, e1, w1, n1, p1⟩ := applyCircuit_exact t.2 hq hf hg
    have hl : (q1.applyConstant t.1).coeff.length = 2 ^ q.nqubit := by
      simp [Computer.applyConstant, w1.len, n1]
    obtain ⟨r, e2, l2, v2⟩ := addVec_ok (r := res) (c := (q1.applyConstant t.1).coeff) (by rw [hl, hr])
    have hvr : vec r = vec res + t.1 • t.2.op (vec old) := by
      funext I
      have e3 : vec (q1.applyConstant t.1).coeff = t.1 • t.2.op (vec old) := by
        show vec (q1.coeff.map _) = _
        rw [vec_map_mul]
        have : vec q1.coeff = t.2.op (vec old) := by rw [← ho]; exact p1
        rw [this]
      by_cases hI : I < res.length
      · rw [v2 I hI, e3]; rfl
      · rw [vec_of_ge (by omega), Pi.add_apply, vec_of_ge (by omega), ← e3, vec_of_ge (by omega), add_zero]
    have w3 : ({ q1.applyConstant t.1 with coeff := old } : Computer).WF :=
      ⟨w1.nbasis, by show old.length = 2 ^ q1.nqubit; rw [n1, ← ho, hq.len], w1.new⟩
    have n3 : ({ q1.applyConstant t.1 with coeff := old } : Computer).nqubit = q.nqubit := n1
    obtain ⟨q', r', f1, f2, f3, f4, f5⟩ := ih ({ q1.applyConstant t.1 with coeff := old } : Computer) r w3 rfl
      (by rw [n3, l2, hr]) (fun t ht => by rw [n3]; exact hA t (by simp [ht]))
    refine ⟨q', r', ?_, f2, by rw [f3, n3], by rw [f4, n3], ?_⟩
    · rw [List.foldlM_cons]
      simp only [e1, e2, except_ok_bind]
      exact f1
    · rw [f5, hvr, QubitOperator.op_cons, LinearMap.add_apply, LinearMap.smul_apply, add_assoc]

end QF
