import Verif.Spec.CircuitOp

/-!
Specification layer: Pauli strings.
-/
namespace QF

/-- the operator a Pauli letter denotes on qubit `t` -/
noncomputable def pauliL (s : String) (t : ℕ) : Op :=
  if s = "X" then opX t else if s = "Y" then opY t else if s = "Z" then opZ t else if s = "I" then 1 else 0

/-- a circuit read as a product of operators from left to right: `[A, B]` is `A * B` (apply `B` first).
This is how Pauli strings are written on paper; execution (`Circuit.op`) applies the first gate first. -/
noncomputable def Circuit.opLR (c : Circuit) : Op := (c.map Gate.op).prod

/-- a canonical Pauli string: X/Y/Z gates with strictly increasing qubits -/
structure Circuit.Canonical (c : Circuit) : Prop where
  gates : ∀ g ∈ c, (g.label = "X" ∨ g.label = "Y" ∨ g.label = "Z") ∧ makeGate g.label g.target g.target 0 = .ok g
  sorted : c.Pairwise (fun a b => a.target < b.target)

/-- X, Y or Z -/
def IsXYZ (s : String) : Prop := s = "X" ∨ s = "Y" ∨ s = "Z"
def IsIXYZ (s : String) : Prop := s = "I" ∨ IsXYZ s

/-- a Pauli gate as `qforte.gate` makes it -/
structure PauliGate (g : Gate) : Prop where
  letter : IsXYZ g.label
  make : makeGate g.label g.target g.target 0 = .ok g

/-- a fourth root of unity -/
def IsUnit4 (z : ℂ) : Prop := z = 1 ∨ z = -1 ∨ z = Complex.I ∨ z = -Complex.I

end QF
