import Verif.Model.Transforms
import Verif.Spec.OperatorOp

/-! Specification layer: the operator an organizer (python list of Pauli words) stands for. -/
namespace QF

/-- the product of the letters, written left to right -/
noncomputable def wordOp (w : PyWord) : Op := (w.map fun l => pauliL l.1 l.2).prod

/-- `Σ coeff · word` -/
noncomputable def Organizer.op (O : Organizer) : Op := (O.map fun t => t.1 • wordOp t.2).sum

/-- letters X, Y, Z only -/
def PyWord.IsPauli (w : PyWord) : Prop := ∀ l ∈ w, IsXYZ l.1

/-- letters X, Y, Z on strictly increasing qubits -/
structure PyWord.Canonical (w : PyWord) : Prop where
  pauli : PyWord.IsPauli w
  sorted : w.Pairwise fun a b => a.2 < b.2

/-- no qubit occurs more than twice -/
def PyWord.AtMostTwice (w : PyWord) : Prop := ∀ q, w.countP (fun l => l.2 = q) ≤ 2

/-- what `combine_like_terms` may drop: distinct words, each with a coefficient of modulus at most 1e-10 -/
def Organizer.Negligible (D : Organizer) : Prop := (D.map Prod.snd).Nodup ∧ ∀ t ∈ D, ‖t.1‖ ≤ 1e-10

/-- no word is repeated -/
def Organizer.Distinct (O : Organizer) : Prop := (O.map Prod.snd).Nodup

end QF
