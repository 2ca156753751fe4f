import Verif.Spec.Bits

/-!
Model of `src/qforte/qubit_basis.{h,cc}`.
`basis_t = uint64_t` is `BitVec 64`.  `1 << pos` for `pos ≥ 64` is undefined behaviour in C++; the
theorems assume `pos < 64`.
-/
namespace QF

/-- `class QubitBasis`, qubit_basis.h:17-59 -/
structure QubitBasis where
  state : BitVec 64
  deriving DecidableEq

namespace QubitBasis

/-- constructor, qubit_basis.h:24 (`size_t` is 64 bits wide) -/
def ofNat (n : ℕ) : QubitBasis := ⟨BitVec.ofNat 64 n⟩

/-- `maskbit`, qubit_basis.h:27 -/
def maskbit (pos : ℕ) : BitVec 64 := 1#64 <<< pos

/-- `get_bit`, qubit_basis.h:30 -/
def getBit (b : QubitBasis) (pos : ℕ) : Bool := (b.state &&& maskbit pos) != 0#64

/-- `-val` for a `bool` promoted to `int` and converted to `uint64_t`: 0 or all ones -/
def negBool (val : Bool) : BitVec 64 := if val then BitVec.allOnes 64 else 0#64

/-- `set_bit`, qubit_basis.h:33: `state_ ^= (-val ^ state_) & maskbit(pos)` -/
def setBit (b : QubitBasis) (pos : ℕ) (val : Bool) : QubitBasis :=
  ⟨b.state ^^^ ((negBool val ^^^ b.state) &&& maskbit pos)⟩

/-- `flip_bit`, qubit_basis.h:36 -/
def flipBit (b : QubitBasis) (pos : ℕ) : QubitBasis := ⟨b.state ^^^ maskbit pos⟩

/-- `set`, qubit_basis.cc:17 -/
def set (_ : QubitBasis) (state : BitVec 64) : QubitBasis := ⟨state⟩

/-- `zero`, qubit_basis.h:42 -/
def zero (_ : QubitBasis) : QubitBasis := ⟨0#64⟩

/-- `index`, qubit_basis.h:45 -/
def index (b : QubitBasis) : ℕ := b.state.toNat

/-- `str`, qubit_basis.cc:3-15 -/
def str (b : QubitBasis) (nqubit : ℕ) : String :=
  "|" ++ String.ofList ((List.range nqubit).map fun i => if b.getBit i then '1' else '0') ++ ">"

end QubitBasis
end QF
