import Verif.Spec.Exp
import Verif.Spec.Inner

/-!
Specification layer: the disentangled unitary coupled-cluster state and its energy.
-/
namespace QF

/-- `V(s) = exp(s K)` -/
def IsFlow (K : Op) (V : ℝ → Op) : Prop := ∀ s : ℝ, IsExp ((s : ℂ) • K) (V s)

/-- `U(t) = V_M(t_M) ⋯ V_2(t_2) V_1(t_1)` -/
def uccOp (Vs : List (ℝ → Op)) (ts : List ℝ) : Op := applyInOrder (List.zipWith (fun V t => V t) Vs ts)

/-- `⟨ψ|H|ψ⟩` (its real part) on `n` qubits -/
noncomputable def energy (n : ℕ) (H : Op) (ψ : St) : ℝ := (inner n ψ (H ψ)).re

/-- `E(t) = ⟨Φ|U(t)† H U(t)|Φ⟩` -/
noncomputable def uccEnergy (n : ℕ) (H : Op) (Φ : St) (Vs : List (ℝ → Op)) (ts : List ℝ) : ℝ := energy n H (uccOp Vs ts Φ)

/-- `H† = H` on `n` qubits -/
def HermitianOn (n : ℕ) (H : Op) : Prop := ∀ φ ψ : St, inner n φ (H ψ) = inner n (H φ) ψ

/-- an amplitude that the ansatz circuit represents exactly: zero, or so large that no Pauli term of `t κ` is below the threshold 1e-12.  All Pauli terms of `t κ` have the
modulus `2 |t| / 2 ^ k`, where `k` is the number of orbitals of the excitation. -/
def AmpResolved (x : List ℕ × List ℕ) (t : ℝ) : Prop := t = 0 ∨ 1e-12 * 2 ^ (x.1 ++ x.2).toFinset.card < 2 * |t|

/-- the amplitude that the circuit of an excitation uses -/
noncomputable def usedAmp (x : List ℕ × List ℕ) (t : ℝ) : ℝ := open Classical in if AmpResolved x t then t else 0

/-- the amplitudes that the ansatz circuit uses -/
noncomputable def usedAmps (xs : List (List ℕ × List ℕ)) (ts : List ℝ) : List ℝ := List.zipWith usedAmp xs ts

/-- an amplitude that the compact circuit of a rank-`r` excitation represents exactly on the simulator: the rotations of that circuit are by `± t / 2 ^ (2 r - 2)`, and the sine and
cosine of half that angle are zero or above the threshold 1e-16 -/
def CompactResolved (x : List ℕ × List ℕ) (t : ℝ) : Prop :=
  (Real.cos (t / 2 ^ (2 * x.1.length - 1)) = 0 ∨ 1e-16 < |Real.cos (t / 2 ^ (2 * x.1.length - 1))|) ∧
  (Real.sin (t / 2 ^ (2 * x.1.length - 1)) = 0 ∨ 1e-16 < |Real.sin (t / 2 ^ (2 * x.1.length - 1))|)

end QF
