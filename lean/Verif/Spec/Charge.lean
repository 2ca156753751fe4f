import Verif.Spec.Fermion
import Verif.Spec.Inner

/-!
Specification layer: adjoints on a register, additive quantum numbers.
-/
namespace QF

/-- `B` is the adjoint of `A` on `n` qubits -/
def IsAdj (n : ℕ) (A B : Op) : Prop := ∀ φ ψ : St, inner n φ (A ψ) = inner n (B φ) ψ

/-- `A† = -A` on `n` qubits -/
def AntiHermitian (n : ℕ) (A : Op) : Prop := ∀ φ ψ : St, inner n φ (A ψ) = -inner n (A φ) ψ

/-- the diagonal operator `Σ_{p < n} w_p n_p` -/
noncomputable def chargeOp (w : ℕ → ℂ) (n : ℕ) : Op where
  toFun ψ I := (∑ p ∈ Finset.range n, if I.testBit p then w p else 0) * ψ I
  map_add' ψ φ := by funext I; simp only [Pi.add_apply]; ring
  map_smul' a ψ := by funext I; simp only [Pi.smul_apply, smul_eq_mul, RingHom.id_apply]; ring

/-- the particle number operator on `n` spin orbitals -/
noncomputable def NumOp (n : ℕ) : Op := chargeOp (fun _ => 1) n

/-- the spin projection on `n` spin orbitals: even ones are alpha, odd ones beta -/
noncomputable def SpinZ (n : ℕ) : Op := chargeOp (fun p => if p % 2 = 0 then 1 / 2 else -1 / 2) n

end QF
