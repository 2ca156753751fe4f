import Verif.Model.Circuit
import Mathlib.Data.Set.Card
import Mathlib.Algebra.Group.Even

/-!
Specification layer: numbers of CNOT gates.
-/
namespace QF

/-- number of letters of a Pauli string other than the identity -/
def weight (s : Circuit) : ℕ := s.countP fun g => g.label ≠ "I"

/-- a ladder of CNOT gates through `k` qubits and back -/
def ladderCost (k : ℕ) : ℕ := 2 * (k - 1)

/-- the qubits outside an excitation on the spin orbitals `idx` through which the Jordan-Wigner sign passes: those with an odd
number of the orbitals of the excitation above them -/
def signQubits (idx : List ℕ) : Set ℕ := {j | j ∉ idx ∧ Odd (idx.countP (j < ·))}

/-- their number; an excitation of qubits (`q`) has no sign -/
noncomputable def signWidth (q : Bool) (idx : List ℕ) : ℕ := if q then 0 else (signQubits idx).ncard

/-- CNOT gates of the Trotter circuit of an excitation of `r` electrons with a sign through `s` qubits: `2 ^ (2 r - 1)` strings on `2 r + s` qubits -/
def stringsCost (r s : ℕ) : ℕ := 2 ^ (2 * r - 1) * ladderCost (2 * r + s)

/-- CNOT gates of the compact circuit for `r` electrons with a sign through `s` qubits, controlled on `g` further qubits -/
def compactCost (r g s : ℕ) : ℕ := 2 ^ (2 * r - 1 + g) + 2 * (2 * r - 1) + ladderCost s

end QF
