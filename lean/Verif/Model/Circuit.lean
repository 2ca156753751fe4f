import Verif.Model.Gate
import Mathlib.Data.List.Sort

/-!
Model of `src/qforte/circuit.{h,cc}` and of `evaluate_gate_interaction` (gate.cc).
A `Circuit` has the single data member `std::vector<Gate> gates_` (circuit.h:98), so it is a `List Gate`.
Member functions that modify the circuit return the new circuit.
-/
namespace QF

abbrev Circuit := List Gate

namespace Circuit

/-- `add_gate`, circuit.h:25 -/
def addGate (c : Circuit) (g : Gate) : Circuit := c ++ [g]

/-- `add_circuit`, circuit.cc:78-82, for an argument that is a different object than `*this` -/
def addCircuit (c d : Circuit) : Circuit := d.foldl addGate c

/-- `insert_gate`, circuit.cc:50-55 -/
def insertGate (c : Circuit) (pos : ℕ) (g : Gate) : Except Exc Circuit :=
  if pos > c.length then .error .runtimeError else .ok (c.take pos ++ g :: c.drop pos)

/-- `remove_gate`, circuit.cc:57-62 -/
def removeGate (c : Circuit) (pos : ℕ) : Except Exc Circuit :=
  if pos ≥ c.length then .error .runtimeError else .ok (c.take pos ++ c.drop (pos + 1))

/-- `replace_gate`, circuit.cc:64-69 -/
def replaceGate (c : Circuit) (pos : ℕ) (g : Gate) : Except Exc Circuit :=
  if pos ≥ c.length then .error .runtimeError else .ok (c.set pos g)

/-- `swap_gates`, circuit.cc:71-76 -/
def swapGates (c : Circuit) (pos1 pos2 : ℕ) : Except Exc Circuit :=
  if pos1 ≥ c.length ∨ pos2 ≥ c.length then .error .runtimeError
  else match c[pos1]?, c[pos2]? with
    | some g1, some g2 => .ok ((c.set pos1 g2).set pos2 g1)
    | _, _ => .error .undefinedBehaviour

/-- `insert_circuit`, circuit.cc:84-89, for an argument that is a different object than `*this` -/
def insertCircuit (c : Circuit) (pos : ℕ) (d : Circuit) : Except Exc Circuit :=
  if pos > c.length then .error .runtimeError else .ok (c.take pos ++ d ++ c.drop pos)

/-- `remove_gates`, circuit.cc:91-96; `vector::erase(first, last)` with `last < first` is undefined -/
def removeGates (c : Circuit) (pos1 pos2 : ℕ) : Except Exc Circuit :=
  if pos1 ≥ c.length ∨ pos2 ≥ c.length then .error .runtimeError
  else if pos2 < pos1 then .error .undefinedBehaviour
  else .ok (c.take pos1 ++ c.drop pos2)

/-- `adjoint`, circuit.cc:98-105 -/
noncomputable def adjoint (c : Circuit) : Circuit := (c.map Gate.adjoint).reverse

open Classical in
/-- body of the loop of `set_parameters` (circuit.cc:13-22): the gates afterwards, and either the final
`param_idx` or the way the call ended early -/
noncomputable def setParametersLoop (params : List ℝ) : Circuit → ℕ → Circuit × Except Exc ℕ
  | [], k => ([], .ok k)
  | g :: gs, k =>
    match g.parameter with
    | none =>
      let r := setParametersLoop params gs k
      (g :: r.1, r.2)
    | some p =>
      -- `params[param_idx]` is read before `param_idx < param_size` is tested
      match params[k]? with
      | none => (g :: gs, .error .undefinedBehaviour)
      | some v =>
        match (if |p - v| > 1e-12 ∧ k < params.length then makeGate g.label g.target g.control v
          else .ok g) with
        | .error e => (g :: gs, .error e)
        | .ok g' =>
          let r := setParametersLoop params gs (k + 1)
          (g' :: r.1, r.2)

/-- `set_parameters`, circuit.cc:10-27: the circuit after the call, and how the call ended -/
noncomputable def setParameters (c : Circuit) (params : List ℝ) : Circuit × Except Exc Unit :=
  let r := setParametersLoop params c 0
  (r.1, match r.2 with
    | .error e => .error e
    | .ok k => if k ≠ params.length then .error .runtimeError else .ok ())

/-- `set_parameter`, circuit.cc:29-38 -/
noncomputable def setParameter (c : Circuit) (pos : ℕ) (v : ℝ) : Except Exc Circuit :=
  match c[pos]? with
  | none => .error .runtimeError
  | some g => if ¬ g.hasParameter then .error .runtimeError
    else do
      let g' ← makeGate g.label g.target g.control v
      pure (c.set pos g')

/-- `get_parameters`, circuit.cc:40-48 -/
noncomputable def getParameters (c : Circuit) : List ℝ := c.filterMap Gate.parameter

/-- `get_num_cnots`, circuit.cc:171-182 -/
def getNumCnots (c : Circuit) : ℤ :=
  c.foldl (fun n g =>
    if g.label = "CNOT" ∨ g.label = "cX" ∨ g.label = "aCNOT" ∨ g.label = "acX" then n + 1
    else if g.label = "A" ∨ g.label = "SWAP" then n + 3
    else n) 0

/-- `num_qubits`, circuit.cc:193-199 -/
def numQubits (c : Circuit) : ℕ :=
  c.foldl (fun m g => max m (max (g.target + 1) (g.control + 1))) 0

/-- `is_pauli`, circuit.cc:219-227 -/
def isPauli (c : Circuit) : Bool := c.all fun g => g.label = "X" ∨ g.label = "Y" ∨ g.label = "Z"

/-- `operator==(Circuit, Circuit)`, circuit.cc:342-344: `std::vector<Gate>` equality -/
noncomputable def beq : Circuit → Circuit → Bool
  | [], [] => true
  | g :: c, h :: d => g.beq h && beq c d
  | _, _ => false

/-! ### canonicalize_pauli_circuit -/

/-- the map `m` of circuit.cc:120-132; `operator[]` on a missing key yields `(0, "")` -/
noncomputable def pauliMap (a b : String) : ℂ × String :=
  if a = "X" ∧ b = "Y" then (Complex.I, "Z")
  else if a = "X" ∧ b = "Z" then (-Complex.I, "Y")
  else if a = "Y" ∧ b = "X" then (-Complex.I, "Z")
  else if a = "Y" ∧ b = "Z" then (Complex.I, "X")
  else if a = "Z" ∧ b = "X" then (Complex.I, "Y")
  else if a = "Z" ∧ b = "Y" then (-Complex.I, "X")
  else if a = "X" ∧ b = "X" then (1, "I")
  else if a = "Y" ∧ b = "Y" then (1, "I")
  else if a = "Z" ∧ b = "Z" then (1, "I")
  else if a = "I" ∧ b = "X" then (1, "X")
  else if a = "I" ∧ b = "Y" then (1, "Y")
  else if a = "I" ∧ b = "Z" then (1, "Z")
  else (0, "")

/-- the loop of circuit.cc:145-163 from gate `i` on: `cur` is `some s` when
`first_gate_for_qubit` is false and `s` is the current letter -/
noncomputable def canonLoop : Circuit → Option String → Except Exc (ℂ × Circuit)
  | [], _ => .ok (1, [])
  | [g], cur =>
    let s := cur.getD g.label
    if s ≠ "I" then do
      let x ← makeGate s g.target g.target 0
      pure (1, [x])
    else .ok (1, [])
  | g :: h :: gs, cur =>
    let s := cur.getD g.label
    if g.target = h.target then do
      let u := pauliMap s h.label
      let r ← canonLoop (h :: gs) (some u.2)
      pure (u.1 * r.1, r.2)
    else do
      let x ← (if s ≠ "I" then do
          let x ← makeGate s g.target g.target 0
          pure [x]
        else pure [])
      let r ← canonLoop (h :: gs) none
      pure (r.1, x ++ r.2)

/-- `canonicalize_pauli_circuit`, circuit.cc:107-169.  `std::stable_sort` by target is the (unique)
stable insertion sort. -/
noncomputable def canonicalizePauli (c : Circuit) : Except Exc (ℂ × Circuit) :=
  if c.length = 0 then .ok (1, c)
  else if ¬ c.isPauli then .error .runtimeError
  else canonLoop (c.insertionSort (fun a b => a.target ≤ b.target)) none

end Circuit

/-! ### evaluate_gate_interaction -/

open GateType in
/-- `pairs_of_commuting_1qubit_gates` (gate.cc:256-272), looked up irrespective of order
(`pair_equal`, gate.cc:247-254) -/
def commuting1 : List (GateType × GateType) :=
  [(X, X), (Rx, X), (V, X), (adjV, X), (Y, Y), (Ry, Y), (Z, Z), (S, Z), (T, Z), (Rz, Z), (R, Z), (H, H),
   (S, S), (S, T), (Rz, S), (R, S), (T, T), (Rz, T), (R, T), (Rx, Rx), (Rx, V), (adjV, Rx), (Ry, Ry),
   (Rz, Rz), (R, Rz), (R, R), (V, V), (adjV, V), (adjV, adjV)]

/-- membership in `pairs_of_commuting_1qubit_gates` -/
def pairCommute (a b : GateType) : Bool := decide ((a, b) ∈ commuting1 ∨ (b, a) ∈ commuting1)

/-- membership in `V_adjV`, gate.cc:274-275 -/
def isVadjV (a b : GateType) : Bool := decide ((a = .adjV ∧ b = .V) ∨ (a = .V ∧ b = .adjV))

/-- `diagonal_1qubit_gates`, gate.cc:277-278 -/
def isDiag1 (a : GateType) : Bool := decide (a ∈ [GateType.T, .S, .Z, .Rz, .R])

/-- `phase_1qubit_gates`, gate.cc:280-281 -/
def isPhase1 (a : GateType) : Bool := decide (a ∈ [GateType.T, .S, .Z, .R])

/-- `controlled_2qubit_to_1qubit_gate.at(...)`, gate.cc:283-287; `.at` throws `std::out_of_range` -/
def ctrlTo1 : GateType → Except Exc GateType
  | .cX => .ok .X | .acX => .ok .X | .cY => .ok .Y | .cZ => .ok .Z | .cRz => .ok .Rz | .cR => .ok .R
  | .cV => .ok .V | .adjcV => .ok .adjV
  | _ => .error .outOfRange

/-- `symmetrical_2qubit_gates`, gate.cc:289-290 -/
def isSym2 (a : GateType) : Bool := decide (a ∈ [GateType.cZ, .cR, .SWAP])

/-- the `std::set` of qubits of a gate, gate.cc:294-295 -/
def Gate.qubitSet (g : Gate) : List ℕ := if g.target = g.control then [g.target] else [g.target, g.control]

/-- `evaluate_gate_interaction`, gate.cc:292-414 -/
def evaluateGateInteraction (g1 g2 : Gate) : Except Exc (Bool × ℕ) :=
  let common := (g1.qubitSet.filter (· ∈ g2.qubitSet)).length
  if common = 0 then .ok (true, 0)
  else
    let n1 := g1.qubitSet.length
    let n2 := g2.qubitSet.length
    let t1 := g1.type
    let t2 := g2.type
    if n1 * n2 = 1 then
      if isPhase1 t1 && isPhase1 t2 then
        if t1 = t2 then .ok (true, 1) else .ok (true, 3)
      else .ok (pairCommute t1 t2, (if t1 = t2 then 1 else 0) + 4 * (if isVadjV t1 t2 then 1 else 0))
    else if n1 * n2 = 2 then
      if t1 = .SWAP ∨ t2 = .SWAP ∨ t1 = .A ∨ t2 = .A then .ok (false, 0)
      else
        let s := if n1 = 1 then g1 else g2
        let w := if n1 = 1 then g2 else g1
        if s.target = w.target then do
          let x ← ctrlTo1 w.type
          pure (pairCommute s.type x, 0)
        else .ok (isDiag1 s.type, 0)
    else if n1 * n2 = 4 then
      if common = 1 then
        if t1 = .SWAP ∨ t2 = .SWAP ∨ t1 = .A ∨ t2 = .A then .ok (false, 0)
        else if g1.control = g2.control then .ok (true, 0)
        else if g1.target = g2.target then do
          let x ← ctrlTo1 t1
          let y ← ctrlTo1 t2
          pure (pairCommute x y, 0)
        else if g1.target = g2.control then do
          let x ← ctrlTo1 t1
          pure (isDiag1 x, 0)
        else do
          let x ← ctrlTo1 t2
          pure (isDiag1 x, 0)
      else
        if isSym2 t1 && isSym2 t2 then .ok (true, 2 * (if t1 = t2 then 1 else 0))
        else if t1 = .SWAP ∨ t2 = .SWAP then .ok (false, 0)
        else if t1 = .A ∨ t2 = .A then
          if isSym2 t1 || isSym2 t2 then .ok (true, 0) else .ok (false, 0)
        else if g1.target = g2.target then do
          let x ← ctrlTo1 t1
          let y ← ctrlTo1 t2
          pure (pairCommute x y, (if t1 = t2 then 1 else 0) + 4 * (if isVadjV x y then 1 else 0))
        else do
          let x ← ctrlTo1 t1
          -- `&&` evaluates (and may throw in) the second lookup only if the first is true
          if isDiag1 x then do
            let y ← ctrlTo1 t2
            pure (isDiag1 y, 0)
          else pure (false, 0)
    else .ok (false, 0)

/-! ### Circuit::simplify -/

/-- `involutory_gates`, circuit.cc:248-250 -/
def isInvolutory (a : GateType) : Bool :=
  decide (a ∈ [GateType.X, .Y, .Z, .cX, .cY, .cZ, .acX, .H, .SWAP])

/-- `parametrized_gates`, circuit.cc:252-253 -/
def isParametrized (a : GateType) : Bool := decide (a ∈ [GateType.Rx, .Ry, .Rz, .R, .cRz, .cR])

/-- `square_root_gates`, circuit.cc:255-256 -/
def isSquareRoot (a : GateType) : Bool := decide (a ∈ [GateType.T, .S, .V, .cV, .adjV, .adjcV])

/-- `simplify_square_root_gates.at(...)`, circuit.cc:258-260 -/
def squareOf : GateType → Except Exc String
  | .T => .ok "S" | .S => .ok "Z" | .V => .ok "X" | .cV => .ok "cX" | .adjV => .ok "X" | .adjcV => .ok "cX"
  | _ => .error .outOfRange

/-- `get_phase_gate_parameter`, circuit.cc:229-244 -/
noncomputable def phaseGateParameter (g : Gate) : Except Exc ℝ :=
  match g.parameter with
  | some p => .ok p
  | none =>
    match g.type with
    | .T => .ok (Real.pi / 4)
    | .S => .ok (Real.pi / 2)
    | .Z => .ok Real.pi
    | _ => .error .invalidArgument

/-- dereference of a `std::optional`; an empty one is undefined behaviour -/
def deref {α : Type} : Option α → Except Exc α
  | some a => .ok a
  | none => .error .undefinedBehaviour

/-- what one pair `(gate1, gate2)` does in the loop of `simplify`, circuit.cc:276-335 -/
inductive SimpStep where
  | next                     -- go on with the next `pos2`
  | stop                     -- `break`
  | removeBoth               -- erase `pos1` and `pos2`, `break`
  | merge (g : Gate)         -- erase `pos1`, replace gate `pos2`, `break`

/-- decision for one pair, circuit.cc:278-335 -/
noncomputable def simpStep (g1 g2 : Gate) : Except Exc SimpStep := do
  let r ← evaluateGateInteraction g1 g2
  if r.1 then
    if r.2 = 0 then pure .next
    else if r.2 = 1 then
      if isInvolutory g1.type then pure .removeBoth
      else if isParametrized g1.type then do
        let p ← deref g1.parameter
        let q ← deref g2.parameter
        let g ← makeGate g2.label g2.target g2.control (p + q)
        pure (.merge g)
      else if isSquareRoot g1.type then do
        let s ← squareOf g2.type
        let g ← makeGate s g2.target g2.control 0
        pure (.merge g)
      else pure .next
    else if r.2 = 2 then
      if isInvolutory g1.type then pure .removeBoth
      else do
        let x ← ctrlTo1 g1.type
        if isPhase1 x then do
          let p ← deref g1.parameter
          let q ← deref g2.parameter
          let g ← makeGate g2.label g2.target g2.control (p + q)
          pure (.merge g)
        else pure .next
    else if r.2 = 3 then do
      let p ← phaseGateParameter g1
      let q ← phaseGateParameter g2
      let g ← makeGate "R" g2.target g2.control (p + q)
      pure (.merge g)
    else if r.2 = 4 then pure .removeBoth
    else pure .next
  else pure .stop

/-- inner loop over `pos2`, circuit.cc:270-336; `s = (gates_, gate_indices_to_remove)` -/
noncomputable def simpInner (g1 : Gate) (pos1 : ℕ) :
    List ℕ → Circuit × List ℕ → Except Exc (Circuit × List ℕ)
  | [], s => .ok s
  | pos2 :: rest, s =>
    if pos2 ∈ s.2 then simpInner g1 pos1 rest s
    else match s.1[pos2]? with
      | none => .error .undefinedBehaviour
      | some g2 => do
        let r ← simpStep g1 g2
        match r with
        | .next => simpInner g1 pos1 rest s
        | .stop => .ok s
        | .removeBoth => .ok (s.1, s.2 ++ [pos1, pos2])
        | .merge g => .ok (s.1.set pos2 g, s.2 ++ [pos1])

/-- outer loop over `pos1`, circuit.cc:264-337 -/
noncomputable def simpOuter (n : ℕ) : List ℕ → Circuit × List ℕ → Except Exc (Circuit × List ℕ)
  | [], s => .ok s
  | pos1 :: rest, s =>
    if pos1 ∈ s.2 then simpOuter n rest s
    else match s.1[pos1]? with
      | none => .error .undefinedBehaviour
      | some g1 => do
        let s ← simpInner g1 pos1 (List.range' (pos1 + 1) (n - (pos1 + 1))) s
        simpOuter n rest s

/-- `Circuit::simplify`, circuit.cc:246-340.  Only the result of a successful call is modelled; when an
exception is thrown the C++ object may have been partly updated. -/
noncomputable def Circuit.simplify (c : Circuit) : Except Exc Circuit := do
  let s ← simpOuter c.length (List.range c.length) (c, [])
  pure ((s.2.insertionSort (· ≤ ·)).reverse.foldl (fun gs p => gs.eraseIdx p) s.1)

end QF
