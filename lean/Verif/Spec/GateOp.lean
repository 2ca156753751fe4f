import Verif.Spec.Ops
import Mathlib.Data.Matrix.Mul
import Mathlib.LinearAlgebra.Matrix.ConjTranspose
import Mathlib.Analysis.SpecialFunctions.Trigonometric.Basic
import Mathlib.Analysis.Real.Sqrt

/-!
Specification layer: the action of a gate matrix, and the standard gates of quantum computing.
-/
namespace QF

/-- row/column index of a one-qubit basis state -/
def ix1 (b : Bool) : Fin 4 := if b then 1 else 0
/-- row/column index of the two-qubit basis state `|control, target⟩`: `2*control + target` -/
def ix2 (x y : Bool) : Fin 4 :=
  match x, y with
  | false, false => 0 | false, true => 1 | true, false => 2 | true, true => 3

/-- the upper-left 2×2 block of a 4×4 matrix, indexed by bits -/
def toM2 (m : Matrix (Fin 4) (Fin 4) ℂ) : M2 := fun a b => m (ix1 a) (ix1 b)
/-- a 4×4 matrix indexed by pairs of bits (control, target) -/
def toM4 (m : Matrix (Fin 4) (Fin 4) ℂ) : M4 := fun a b x y => m (ix2 a b) (ix2 x y)

/-- The operator a gate matrix denotes: `target = control` marks a one-qubit gate whose matrix is the
upper-left 2×2 block; otherwise the 4×4 matrix acts on `|control, target⟩`. -/
def matOp (t c : ℕ) (m : Matrix (Fin 4) (Fin 4) ℂ) : Op :=
  if t = c then op1 t (toM2 m) else op2 t c (toM4 m)

/-- the upper-left 2×2 block as a Mathlib matrix -/
def blk2 (m : Matrix (Fin 4) (Fin 4) ℂ) : Matrix (Fin 2) (Fin 2) ℂ :=
  !![m 0 0, m 0 1; m 1 0, m 1 1]

/-- unitarity of the block of the matrix that acts -/
def MatUnitary (t c : ℕ) (m : Matrix (Fin 4) (Fin 4) ℂ) : Prop :=
  if t = c then (blk2 m).conjTranspose * blk2 m = 1 else m.conjTranspose * m = 1

/-! ### the standard gates -/

/-- phase gate `diag(1, e^{iθ})` on qubit `t` -/
noncomputable def phaseOp (t : ℕ) (θ : ℝ) : Op := proj t false + Complex.exp (Complex.I * θ) • proj t true

/-- rotation `exp(-i θ/2 P) = cos(θ/2) - i sin(θ/2) P` about an involution `P` -/
noncomputable def rotOp (P : Op) (θ : ℝ) : Op :=
  ((Real.cos (θ / 2) : ℝ) : ℂ) • (1 : Op) - (Complex.I * ((Real.sin (θ / 2) : ℝ) : ℂ)) • P

/-- the square root of X used by qforte, `e^{iπ/4} exp(-i π/4 X)` -/
noncomputable def sqrtXOp (t : ℕ) : Op :=
  ((1 + Complex.I) / 2 : ℂ) • (1 : Op) + ((1 - Complex.I) / 2 : ℂ) • opX t

/-- exchange of qubits `t` and `c` -/
def swapBits (I t c : ℕ) : ℕ := setBit (setBit I t (I.testBit c)) c (I.testBit t)
def swapOp (t c : ℕ) : Op where
  toFun ψ I := ψ (swapBits I t c)
  map_add' _ _ := rfl
  map_smul' _ _ := rfl

/-- particle-number conserving gate `A(θ)` (Phys. Rev. A 98, 022322): on `|01⟩,|10⟩` (control,
target) it is the reflection `[[cos θ, sin θ],[sin θ, -cos θ]]`, identity on `|00⟩,|11⟩`. -/
noncomputable def aOp (t c : ℕ) (θ : ℝ) : Op where
  toFun ψ I :=
    if I.testBit c = I.testBit t then ψ I
    else if I.testBit t then (Real.cos θ : ℂ) * ψ I + (Real.sin θ : ℂ) * ψ (swapBits I t c)
    else (Real.sin θ : ℂ) * ψ (swapBits I t c) - (Real.cos θ : ℂ) * ψ I
  map_add' ψ φ := by funext I; simp only [Pi.add_apply]; split_ifs <;> ring
  map_smul' a ψ := by
    funext I; simp only [Pi.smul_apply, smul_eq_mul, RingHom.id_apply]; split_ifs <;> ring

/-- The operator each gate name stands for (`none`: not a gate name for that number of qubits).
`t = c` means a one-qubit gate on `t`. -/
noncomputable def stdGate (ty : String) (t c : ℕ) (θ : ℝ) : Option Op :=
  if t = c then
    if ty = "X" then some (opX t)
    else if ty = "Y" then some (opY t)
    else if ty = "Z" then some (opZ t)
    else if ty = "H" then some (((1 / Real.sqrt 2 : ℝ) : ℂ) • (opX t + opZ t))
    else if ty = "R" then some (phaseOp t θ)
    else if ty = "Rx" then some (rotOp (opX t) θ)
    else if ty = "Ry" then some (rotOp (opY t) θ)
    else if ty = "Rz" then some (rotOp (opZ t) θ)
    else if ty = "V" then some (sqrtXOp t)
    else if ty = "S" then some (phaseOp t (Real.pi / 2))
    else if ty = "T" then some (phaseOp t (Real.pi / 4))
    else if ty = "I" then some 1
    else none
  else
    if ty = "A" then some (aOp t c θ)
    else if ty = "cX" ∨ ty = "CNOT" then some (ctrlOp c true (opX t))
    else if ty = "acX" ∨ ty = "aCNOT" then some (ctrlOp c false (opX t))
    else if ty = "cY" then some (ctrlOp c true (opY t))
    else if ty = "cZ" then some (ctrlOp c true (opZ t))
    else if ty = "cR" then some (ctrlOp c true (phaseOp t θ))
    else if ty = "cV" then some (ctrlOp c true (sqrtXOp t))
    else if ty = "cRz" then some (ctrlOp c true (rotOp (opZ t) θ))
    else if ty = "SWAP" then some (swapOp t c)
    else none

end QF
