import Verif.Spec.OperatorOp
import Mathlib.Data.ZMod.Basic

/-!
Specification layer: binary vectors and the Pauli strings they stand for (qubit tapering).
-/
namespace QF

/-- the Pauli string with letter `f q` on qubit `q < n` -/
noncomputable def pauliStr (n : ℕ) (f : ℕ → String) : Op := ((List.range n).map fun q => pauliL (f q) q).prod

/-- the letter with X-bit `x` and Z-bit `z` -/
def bitLetter (x z : ZMod 2) : String := if x = 1 then (if z = 1 then "Y" else "X") else if z = 1 then "Z" else "I"

/-- the Pauli string encoded by the binary vector `(x | z)` of length `2 n`; column `j` of a half stands for qubit `n - 1 - j` -/
noncomputable def pauliVec (n : ℕ) (v : ℕ → ZMod 2) : Op := pauliStr n fun q => bitLetter (v (n - 1 - q)) (v (2 * n - 1 - q))

/-- two operators anticommute -/
def AntiCommute (A B : Op) : Prop := A * B = -(B * A)

/-- a canonical Pauli string on `n` qubits that commutes with every term of `H`: a Z2 symmetry of `H` -/
structure IsSymmetry (H : QubitOperator) (c : Circuit) : Prop where
  canonical : c.Canonical
  qubits : ∀ g ∈ c, g.target < H.numQubits
  commute : ∀ t ∈ H, Commute t.2.opLR c.opLR

/-- `gens` are independent generators of a maximal Abelian group of Z2 symmetries of `H` -/
structure SymmetryGenerators (H : QubitOperator) (gens : List Circuit) : Prop where
  symmetry : ∀ g ∈ gens, IsSymmetry H g
  abelian : ∀ g ∈ gens, ∀ g' ∈ gens, Commute g.opLR g'.opLR
  /-- no product of a non-empty selection is a multiple of the identity -/
  independent : ∀ L : List Circuit, L.Sublist gens → L ≠ [] → ∀ z : ℂ, (L.map Circuit.opLR).prod ≠ z • 1
  /-- every symmetry that commutes with all generators is, up to a phase, the product of a selection of them -/
  maximal : ∀ c, IsSymmetry H c → (∀ g ∈ gens, Commute c.opLR g.opLR) → ∃ L : List Circuit, L.Sublist gens ∧ ∃ z, IsUnit4 z ∧ c.opLR = z • (L.map Circuit.opLR).prod

/-- qubit `sig[i]` is paired with generator `gens[i]`: its X anticommutes with that generator and commutes with the others -/
structure TaperPairs (n : ℕ) (gens : List Circuit) (sig : List ℕ) : Prop where
  length : sig.length = gens.length
  descending : sig.Pairwise (· > ·)
  lt : ∀ s ∈ sig, s < n
  anti : ∀ i (hi : i < gens.length), AntiCommute (gens[i]).opLR (opX (sig.getD i 0))
  comm : ∀ i (hi : i < gens.length), ∀ j < gens.length, j ≠ i → Commute (gens[i]).opLR (opX (sig.getD j 0))

/-- the basis index without bit `q` -/
def dropBit (I q : ℕ) : ℕ := I % 2 ^ q + 2 ^ q * (I / 2 ^ (q + 1))

/-- the basis index without the bits listed in descending order -/
def compress (sig : List ℕ) (I : ℕ) : ℕ := sig.foldl dropBit I

/-- the state of the whole register made of `φ` on the remaining qubits and of `|0> + s_i |1>`, the eigenvector of X with
eigenvalue `s_i`, on tapered qubit `sig[i]` -/
noncomputable def untaper (sig : List ℕ) (sign : List ℤ) (φ : St) : St := fun I =>
  ((sig.zip sign).map fun t => if I.testBit t.1 then (t.2 : ℂ) else 1).prod * φ (compress sig I)

end QF
