import Verif.Model.Base
import Verif.Spec.Ops
import Mathlib.Analysis.SpecialFunctions.Trigonometric.Basic
import Mathlib.Analysis.Real.Sqrt

/-!
Model of `src/qforte/gate.{h,cc}` and `src/qforte/make_gate.cc`.
-/
namespace QF

open Complex in
/-- `complex_4_4_mat`, gate.h:47 -/
abbrev Mat4 := Matrix (Fin 4) (Fin 4) ℂ

/-- `enum class GateType`, gate.h:16-41 -/
inductive GateType where
  | X | Y | Z | H | R | Rx | Ry | Rz | V | adjV | S | T | I | A
  | cX | acX | cY | cZ | cR | cV | adjcV | cRz | SWAP | Undefined
  deriving DecidableEq, Repr

/-- `Gate::mapLabelToType`, gate.cc:221-236 -/
def mapLabelToType (label : String) : GateType :=
  if label = "X" then .X else if label = "Y" then .Y else if label = "Z" then .Z
  else if label = "H" then .H else if label = "R" then .R else if label = "Rx" then .Rx
  else if label = "Ry" then .Ry else if label = "Rz" then .Rz else if label = "V" then .V
  else if label = "S" then .S else if label = "T" then .T else if label = "I" then .I
  else if label = "A" then .A else if label = "CNOT" then .cX else if label = "cX" then .cX
  else if label = "aCNOT" then .acX else if label = "acX" then .acX else if label = "cY" then .cY
  else if label = "cZ" then .cZ else if label = "cR" then .cR else if label = "cV" then .cV
  else if label = "cRz" then .cRz else if label = "SWAP" then .SWAP
  else if label = "adj(V)" then .adjV else if label = "adj(cV)" then .adjcV
  else .Undefined

/-- `class Gate`, gate.h:52-154.  `type_` is not stored: the constructor (gate.cc:12-21) is the only
place that sets it and always sets it to `mapLabelToType(label_)`.  `param` is `parameter_`: value and
"multiply by -1 on adjoint". -/
structure Gate where
  label : String
  target : ℕ
  control : ℕ
  mat : Mat4
  param : Option (ℝ × Bool)

/-- `Gate::gate_type`, gate.cc:101 with the constructor gate.cc:12-21 -/
def Gate.type (g : Gate) : GateType := mapLabelToType g.label

/-- `Gate::has_parameter`, gate.cc:103 -/
def Gate.hasParameter (g : Gate) : Bool := g.param.isSome

/-- `Gate::parameter`, gate.cc:105-107 -/
def Gate.parameter (g : Gate) : Option ℝ := g.param.map Prod.fst

/-- `Gate::minus_parameter_on_adjoint`, gate.cc:109-111 -/
def Gate.minusOnAdjoint (g : Gate) : Bool := (g.param.map Prod.snd).getD false

/-- `Gate::nqubits`, gate.cc:133 -/
def Gate.nqubits (g : Gate) : ℕ := if g.target = g.control then 1 else 2

/-- exact `std::fmod`: `x - y * trunc(x / y)` -/
noncomputable def fmod (x y : ℝ) : ℝ :=
  x - y * (if 0 ≤ x / y then (⌊x / y⌋ : ℝ) else (⌈x / y⌉ : ℝ))

/-- `normalize_angle`, make_gate.cc:7-16 -/
noncomputable def normalizeAngle (angle period : ℝ) : ℝ :=
  let a := fmod angle period
  if a < -period / 2 then a + period
  else if a > period / 2 then a - period
  else a

/-- a C++ `gate[4][4]{{a,b},{c,d}}` initialiser: the remaining entries are zero -/
def mat1 (a b c d : ℂ) : Mat4 := !![a, b, 0, 0; c, d, 0, 0; 0, 0, 0, 0; 0, 0, 0, 0]

/-- the literal `{1,0,0,0},{0,1,0,0},{0,0,a,b},{0,0,c,d}` used for all controlled gates -/
def matC (a b c d : ℂ) : Mat4 := !![1, 0, 0, 0; 0, 1, 0, 0; 0, 0, a, b; 0, 0, c, d]

/-- `make_gate`, make_gate.cc:18-235.  The same if-chain; reaching the end throws
`std::invalid_argument` (make_gate.cc:227). -/
noncomputable def makeGate (type : String) (target control : ℕ) (parameter : ℝ) : Except Exc Gate :=
  if target = control then
    if type = "X" then .ok ⟨type, target, control, mat1 0 1 1 0, none⟩
    else if type = "Y" then .ok ⟨type, target, control, mat1 0 (-Complex.I) Complex.I 0, none⟩
    else if type = "Z" then .ok ⟨type, target, control, mat1 1 0 0 (-1), none⟩
    else if type = "H" then
      let c : ℂ := ((1 / Real.sqrt 2 : ℝ) : ℂ)
      .ok ⟨type, target, control, mat1 c c c (-c), none⟩
    else if type = "R" then
      let p := normalizeAngle parameter (2 * Real.pi)
      let c := Complex.exp (Complex.I * p)
      .ok ⟨type, target, control, mat1 1 0 0 c, some (p, true)⟩
    else if type = "Rx" then
      let p := normalizeAngle parameter (4 * Real.pi)
      let a : ℂ := (Real.cos (0.5 * p) : ℂ)
      let b : ℂ := Complex.I * (Real.sin (0.5 * p) : ℂ)
      .ok ⟨type, target, control, mat1 a (-b) (-b) a, some (p, true)⟩
    else if type = "Ry" then
      let p := normalizeAngle parameter (4 * Real.pi)
      let a : ℂ := (Real.cos (0.5 * p) : ℂ)
      let b : ℂ := (Real.sin (0.5 * p) : ℂ)
      .ok ⟨type, target, control, mat1 a (-b) b a, some (p, true)⟩
    else if type = "Rz" then
      let p := normalizeAngle parameter (4 * Real.pi)
      let a := Complex.exp (-Complex.I * 0.5 * p)
      let b := Complex.exp (Complex.I * 0.5 * p)
      .ok ⟨type, target, control, mat1 a 0 0 b, some (p, true)⟩
    else if type = "V" then
      let a : ℂ := Complex.I * 0.5 + 0.5
      let b : ℂ := -Complex.I * 0.5 + 0.5
      .ok ⟨type, target, control, mat1 a b b a, none⟩
    else if type = "S" then .ok ⟨type, target, control, mat1 1 0 0 Complex.I, none⟩
    else if type = "T" then
      let c : ℂ := (1 + Complex.I) / (Real.sqrt 2 : ℂ)
      .ok ⟨type, target, control, mat1 1 0 0 c, none⟩
    else if type = "I" then .ok ⟨type, target, control, mat1 1 0 0 1, none⟩
    else .error .invalidArgument
  else
    if type = "A" then
      let p := normalizeAngle parameter (2 * Real.pi)
      let c : ℂ := (Real.cos p : ℂ)
      let s : ℂ := (Real.sin p : ℂ)
      .ok ⟨type, target, control, !![1, 0, 0, 0; 0, c, s, 0; 0, s, -c, 0; 0, 0, 0, 1],
        some (p, false)⟩
    else if type = "cX" ∨ type = "CNOT" then .ok ⟨type, target, control, matC 0 1 1 0, none⟩
    else if type = "acX" ∨ type = "aCNOT" then
      .ok ⟨type, target, control, !![0, 1, 0, 0; 1, 0, 0, 0; 0, 0, 1, 0; 0, 0, 0, 1], none⟩
    else if type = "cY" then
      .ok ⟨type, target, control, matC 0 (-Complex.I) Complex.I 0, none⟩
    else if type = "cZ" then .ok ⟨type, target, control, matC 1 0 0 (-1), none⟩
    else if type = "cR" then
      let p := normalizeAngle parameter (2 * Real.pi)
      let c := Complex.exp (Complex.I * p)
      .ok ⟨type, target, control, matC 1 0 0 c, some (p, true)⟩
    else if type = "cV" then
      let a : ℂ := Complex.I * 0.5 + 0.5
      let b : ℂ := -Complex.I * 0.5 + 0.5
      .ok ⟨type, target, control, matC a b b a, none⟩
    else if type = "cRz" then
      let p := normalizeAngle parameter (4 * Real.pi)
      let a := Complex.exp (-Complex.I * 0.5 * p)
      let b := Complex.exp (Complex.I * 0.5 * p)
      .ok ⟨type, target, control, matC a 0 0 b, some (p, true)⟩
    else if type = "SWAP" then
      .ok ⟨type, target, control, !![1, 0, 0, 0; 0, 0, 1, 0; 0, 1, 0, 0; 0, 0, 0, 1], none⟩
    else .error .invalidArgument

/-- `make_control_gate` (python `control_gate`), make_gate.cc:237-256 -/
noncomputable def makeControlGate (control : ℕ) (U : Gate) : Except Exc Gate :=
  if U.target = control then .error .invalidArgument
  else .ok ⟨"cU", U.target, control, matC (U.mat 0 0) (U.mat 0 1) (U.mat 1 0) (U.mat 1 1),
    match U.parameter with
    | some p => some (p, U.minusOnAdjoint)
    | none => none⟩

/-- the self-adjointness test in `Gate::adjoint`, gate.cc:137-147: no entry has
`std::norm(adj - gate) > 1e-12` (`std::norm` is the squared modulus) -/
def Gate.selfAdjointTol (g : Gate) : Prop :=
  ∀ i j : Fin 4, ¬ (Complex.normSq ((starRingEnd ℂ) (g.mat i j) - g.mat j i) > 1e-12)

/-- the label computation of `Gate::adjoint` for gates that are neither parametrised nor
self-adjoint nor T/S, gate.cc:171-177: `adj(x) ↦ x`, otherwise `x ↦ adj(x)` -/
def adjLabel (label : String) : String :=
  let cs := label.toList
  if cs.length > 4 ∧ cs.take 4 = "adj(".toList ∧ cs.getLast? = some ')' then
    String.ofList ((cs.drop 4).take (cs.length - 5))
  else "adj(" ++ label ++ ")"

open Classical in
/-- `Gate::adjoint`, gate.cc:135-179 -/
noncomputable def Gate.adjoint (g : Gate) : Gate :=
  let adj : Mat4 := g.mat.conjTranspose
  match g.param with
  | some (p, m) => ⟨g.label, g.target, g.control, adj, some (p * (1 - 2 * (if m then 1 else 0)), m)⟩
  | none =>
    if g.selfAdjointTol then g
    else if g.type = .T then ⟨"R", g.target, g.control, adj, some (-Real.pi / 4, true)⟩
    else if g.type = .S then ⟨"R", g.target, g.control, adj, some (-Real.pi / 2, true)⟩
    else ⟨adjLabel g.label, g.target, g.control, adj, g.param⟩

open Classical in
/-- `operator==(Gate, Gate)`, gate.cc:183-199 -/
noncomputable def Gate.beq (l r : Gate) : Bool :=
  if l.label ≠ r.label then false
  else if l.target ≠ r.target then false
  else if l.control ≠ r.control then false
  else match l.parameter, r.parameter with
    | some p, some q => decide (|p - q| < 1e-12)
    | _, _ => true

/-- `update_parameter` of the python class `Gate`, bindings.cc:209-218 -/
noncomputable def Gate.updateParameter (g : Gate) (p : ℝ) : Except Exc Gate :=
  if ¬ g.hasParameter then .error .invalidArgument
  else makeGate g.label g.target g.control p

/-- `m.def("gate", (type, target, parameter))`, bindings.cc:238-255 -/
noncomputable def pyGate1 (type : String) (target : ℕ) (parameter : ℂ) : Except Exc Gate :=
  if parameter.im ≠ 0 then .error .invalidArgument
  else if type ∈ ["X", "Y", "Z", "H", "R", "Rx", "Ry", "Rz", "V", "S", "T", "I"] then
    makeGate type target target parameter.re
  else .error .invalidArgument

/-- `m.def("gate", (type, target, control))`, bindings.cc:257-280 -/
noncomputable def pyGate2 (type : String) (target control : ℕ) : Except Exc Gate :=
  if type ∈ ["SWAP", "cV", "CNOT", "cX", "aCNOT", "acX", "cY", "cZ"] then
    makeGate type target control 0
  else if target = control ∧ type ∈ ["X", "Y", "Z", "H", "V", "S", "T", "I"] then
    makeGate type target control 0
  else .error .invalidArgument

/-- `m.def("gate", (type, target, control, parameter))`, bindings.cc:282-290 -/
noncomputable def pyGate3 (type : String) (target control : ℕ) (parameter : ℂ) : Except Exc Gate :=
  if parameter.im ≠ 0 then .error .invalidArgument
  else makeGate type target control parameter.re

end QF
