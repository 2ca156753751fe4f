import Verif.Spec.RealOp
import Verif.Lemmas.Skew
import Verif.Lemmas.SkewExp
import Verif.Props.ExpVal

/-! Operators with a real matrix. -/
namespace QF

theorem conjSt_conjSt (ψ : St) : conjSt (conjSt ψ) = ψ := by funext I; simp [conjSt]

theorem RealOp.one : RealOp 1 := fun _ => rfl

theorem RealOp.mul {A B : Op} (hA : RealOp A) (hB : RealOp B) : RealOp (A * B) := fun ψ => by
  rw [Module.End.mul_apply, Module.End.mul_apply, hB, hA]

theorem RealOp.add {A B : Op} (hA : RealOp A) (hB : RealOp B) : RealOp (A + B) := fun ψ => by
  rw [LinearMap.add_apply, LinearMap.add_apply, hA, hB]
  funext I; simp [conjSt]

theorem RealOp.smul {A : Op} (hA : RealOp A) {z : ℂ} (hz : z.im = 0) : RealOp (z • A) := fun ψ => by
  rw [LinearMap.smul_apply, LinearMap.smul_apply, hA]
  funext I; simp [conjSt, Complex.conj_eq_iff_im.2 hz]

theorem RealOp.zero : RealOp 0 := fun ψ => by funext I; simp [conjSt]

/-- the inverse of a real operator is real -/
theorem RealOp.inv {A B : Op} (hA : RealOp A) (h1 : B * A = 1) (h2 : A * B = 1) : RealOp B := fun ψ => by
  have e : ∀ φ, A (B φ) = φ := fun φ => by rw [← Module.End.mul_apply, h2]; rfl
  have e' : ∀ φ, B (A φ) = φ := fun φ => by rw [← Module.End.mul_apply, h1]; rfl
  rw [← e' (conjSt (B ψ)), hA, e]

theorem RealOp.applyInOrder {l : List Op} (h : ∀ A ∈ l, RealOp A) : RealOp (applyInOrder l) := by
  induction l with
  | nil => exact RealOp.one
  | cons A l ih => exact (ih fun A hA => h A (by simp [hA])).mul (h A (by simp))

theorem RealOp.flow {K : Op} {m : ℕ} (h : RealSkew m K) {V : Op} {s : ℝ} (hV : IsExp ((s : ℂ) • K) V) : RealOp V := by
  obtain ⟨k, hK, ha⟩ := h
  rw [hV.unique (isExp_skew hK ha s)]
  intro ψ
  funext I
  simp only [conjSt, skewExp_apply]
  simp only [map_add, map_mul, Complex.conj_ofReal]

theorem gate_conj {g : Gate} (h : PauliGate g) (ψ : St) : g.op (conjSt ψ) = (if g.label = "Y" then (-1 : ℂ) else 1) • conjSt (g.op ψ) := by
  funext I
  rw [Pi.smul_apply, smul_eq_mul]
  simp only [conjSt]
  rw [gate_mono h, gate_mono h, map_mul, (gph_conj g I h.letter).1]
  split_ifs <;> simp only [conjSt] <;> ring

theorem circuit_conj {c : Circuit} (h : ∀ g ∈ c, PauliGate g) (ψ : St) : c.op (conjSt ψ) = ((-1 : ℂ) ^ c.numY) • conjSt (c.op ψ) := by
  induction c generalizing ψ with
  | nil => simp [Circuit.numY]
  | cons g c ih =>
    rw [Circuit.op_cons, Module.End.mul_apply, Module.End.mul_apply, gate_conj (h g (by simp)), map_smul, ih fun g hg => h g (by simp [hg])]
    by_cases hY : g.label = "Y"
    · simp only [Circuit.numY, hY, if_true, List.countP_cons, decide_true, pow_succ]
      module
    · simp [Circuit.numY, hY, List.countP_cons]

/-- an operator with real coefficients whose strings have an even number of Y -/
theorem realOp_of_even {n : ℕ} {H : QubitOperator} (h : ∀ t ∈ H, t.1.im = 0 ∧ t.2.PauliString n ∧ Even t.2.numY) : RealOp H.op := by
  induction H with
  | nil => simpa [QubitOperator.op] using RealOp.zero
  | cons t H ih =>
    have e : QubitOperator.op (t :: H) = t.1 • t.2.op + QubitOperator.op H := by simp [QubitOperator.op]
    rw [e]
    obtain ⟨h1, h2, h3⟩ := h t (by simp)
    refine RealOp.add (RealOp.smul ?_ h1) (ih fun t ht => h t (by simp [ht]))
    intro ψ
    rw [circuit_conj h2.gates, h3.neg_one_pow, one_smul]

end QF
