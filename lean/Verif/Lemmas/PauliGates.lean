import Verif.Lemmas.Pauli

namespace QF

/-- the gates `qforte.gate("X"|"Y"|"Z", t)` -/
def gX (t : ℕ) : Gate := ⟨"X", t, t, mat1 0 1 1 0, none⟩
noncomputable def gY (t : ℕ) : Gate := ⟨"Y", t, t, mat1 0 (-Complex.I) Complex.I 0, none⟩
def gZ (t : ℕ) : Gate := ⟨"Z", t, t, mat1 1 0 0 (-1), none⟩

theorem make_X (t : ℕ) (θ : ℝ) : makeGate "X" t t θ = .ok (gX t) := makeGate_of_made (.X t θ)
theorem make_Y (t : ℕ) (θ : ℝ) : makeGate "Y" t t θ = .ok (gY t) := makeGate_of_made (.Y t θ)
theorem make_Z (t : ℕ) (θ : ℝ) : makeGate "Z" t t θ = .ok (gZ t) := makeGate_of_made (.Z t θ)

theorem pauliGate_X (t : ℕ) : PauliGate (gX t) := ⟨.inl rfl, make_X t 0⟩
theorem pauliGate_Y (t : ℕ) : PauliGate (gY t) := ⟨.inr (.inl rfl), make_Y t 0⟩
theorem pauliGate_Z (t : ℕ) : PauliGate (gZ t) := ⟨.inr (.inr rfl), make_Z t 0⟩

@[simp] theorem op_gX (t : ℕ) : (gX t).op = opX t := by rw [(pauliGate_X t).op]; exact pauliL_X t
@[simp] theorem op_gY (t : ℕ) : (gY t).op = opY t := by rw [(pauliGate_Y t).op]; exact pauliL_Y t
@[simp] theorem op_gZ (t : ℕ) : (gZ t).op = opZ t := by rw [(pauliGate_Z t).op]; exact pauliL_Z t

theorem PauliGate.cases {g : Gate} (h : PauliGate g) : g = gX g.target ∨ g = gY g.target ∨ g = gZ g.target := by
  have hm := h.make
  rcases h.letter with e | e | e
  · rw [e, make_X] at hm; left; exact (Except.ok.inj hm).symm
  · rw [e, make_Y] at hm; right; left; exact (Except.ok.inj hm).symm
  · rw [e, make_Z] at hm; right; right; exact (Except.ok.inj hm).symm

end QF
