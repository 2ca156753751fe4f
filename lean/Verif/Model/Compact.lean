import Verif.Model.Circuit

/-!
Model of `utils/compact_excitation_circuits.py`.  Orbital (qubit) indices are natural numbers (pybind11 refuses anything
else when a gate is made); floating point is exact.  `theta` is a complex number, as in the callers
(`abc/ansatz.py:65`, `abc/uccvqeabc.py:192`); `qforte.gate` refuses a parameter with an imaginary part.
-/
namespace QF

/-- python's `l[i]` for `i ≥ 0` -/
def pyIndex {α : Type} (l : List α) (i : ℕ) : Except Exc α :=
  match l[i]? with
  | some x => .ok x
  | none => .error .indexError

/-- last column of `aux` for row `j` after the two loops, compact_excitation_circuits.py:115-130: the exclusive or, over
the indices `p`, of `j < p`, cleared at the indices themselves -/
def signColumn (idx : List ℕ) (j : ℕ) : Bool :=
  if j ∈ idx then false else idx.foldl (fun b p => b ^^ decide (j < p)) false

/-- `CNOT_indices` after `reverse()`, compact_excitation_circuits.py:113, 132-137; `max([])` raises -/
def signIndices (creation annihilation : List ℕ) : Except Exc (List ℕ) :=
  match (creation ++ annihilation).max? with
  | none => .error .valueError
  | some m => .ok (((List.range (m + 1)).filter (signColumn (creation ++ annihilation))).reverse)

/-- `fermion_sign_circuit`, compact_excitation_circuits.py:94-149 -/
noncomputable def fermionSignCircuit (creation annihilation : List ℕ) : Except Exc Circuit := do
  let idx ← signIndices creation annihilation
  if idx = [] then pure []
  else do
    let c ← (List.range (idx.length - 1)).foldlM (fun c i => do
      let t ← pyIndex idx (i + 1)
      let s ← pyIndex idx i
      let g ← pyGate2 "CNOT" t s
      pure (Circuit.addGate c g)) ([] : Circuit)
    let t ← pyIndex creation 0
    let s ← pyIndex idx (idx.length - 1)
    let g ← pyGate2 "cZ" t s
    pure (Circuit.addGate c g)

/-- the sign of the `i`-th rotation, compact_excitation_circuits.py:266-279 -/
def rySign (rank : ℕ) (gsdSign : ℤ) (qubitExcitations : Bool) (i : ℕ) : ℤ :=
  let sign : ℤ := 1 - 2 * (i % 2 : ℕ)
  if qubitExcitations then sign
  else
    let prefactor : ℤ :=
      if rank % 2 = 0 ∧ rank % 4 = 0 then 1
      else if ((rank : ℤ) - 1) % 2 = 0 ∧ ((rank : ℤ) - 1) % 4 = 0 then 1
      else if rank = 1 then 1
      else -1
    sign * (prefactor * gsdSign)

/-- the inner loop over the controls with its `break`, compact_excitation_circuits.py:281-289.  The quotients
`num_Ry_gates / (1 << j + 1)` are exact in floating point: they are powers of two. -/
noncomputable def ryControl (target : ℕ) (controls : List ℕ) (gsd : Bool) (i : ℕ) (c : Circuit) : Except Exc Circuit :=
  let num := 2 ^ controls.length
  match controls.zipIdx.find? (fun x => (i + 1) % (num / 2 ^ (x.2 + 1)) = 0) with
  | none => pure c
  | some (control, _) =>
    if (i + 1) % (num / 2) = 0 ∨ i = num - 1 then do
      let g ← pyGate2 "CNOT" target control
      pure (c.addGate g)
    else if gsd then do
      let g ← pyGate2 "CNOT" target control
      pure (c.addGate g)
    else do
      let g ← pyGate2 "aCNOT" target control
      pure (c.addGate g)

/-- `multi_qubit_controlled_Ry`, compact_excitation_circuits.py:210-291; `1 << -1` raises -/
noncomputable def multiQubitControlledRy (theta : ℂ) (target : ℕ) (controlCreation controlAnnihilation gsdControl : List ℕ)
    (gsdSign : ℤ) (qubitExcitations : Bool) : Except Exc Circuit :=
  let controls := controlAnnihilation ++ controlCreation.reverse ++ gsdControl
  if controls.length = 0 then .error .valueError
  else
    let newTheta : ℂ := theta / (2 ^ (controls.length - 1) : ℕ)
    (List.range (2 ^ controls.length)).foldlM (fun c i => do
      let g ← pyGate3 "Ry" target target ((rySign controlAnnihilation.length gsdSign qubitExcitations i : ℂ) * newTheta)
      ryControl target controls (gsdControl ≠ []) i (Circuit.addGate c g)) []

/-- `qubit_excitation`, compact_excitation_circuits.py:152-207 -/
noncomputable def qubitExcitation (theta : ℂ) (creation annihilation gsdControl : List ℕ) (gsdSign : ℤ)
    (qubitExcitations : Bool) : Except Exc Circuit := do
  let c1 ← creation.tail.foldlM (fun c t => do
    let c0 ← pyIndex creation 0
    let g ← pyGate2 "CNOT" t c0
    pure (Circuit.addGate c g)) ([] : Circuit)
  let c2 ← annihilation.tail.foldlM (fun c t => do
    let a0 ← pyIndex annihilation 0
    let g ← pyGate2 "CNOT" t a0
    pure (Circuit.addGate c g)) c1
  let a0 ← pyIndex annihilation 0
  let c0 ← pyIndex creation 0
  let g ← pyGate2 "CNOT" a0 c0
  let c3 := c2.addGate g
  let r ← multiQubitControlledRy theta c0 creation.tail annihilation gsdControl gsdSign qubitExcitations
  pure ((c3.addCircuit r).addCircuit c3.adjoint)

/-- the loop filling `duplicate`, compact_excitation_circuits.py:56-61 -/
def gsdDuplicate (creation annihilation : List ℕ) (g : ℕ) : Except Exc (List ℕ) :=
  (List.range 2).foldlM (fun d i => do
    let c ← pyIndex creation i
    let d1 := if c = g then d ++ [i] else d
    let a ← pyIndex annihilation i
    pure (if a = g then d1 ++ [i] else d1)) []

/-- `compact_excitation_circuit`, compact_excitation_circuits.py:9-91.  `list(set(creation) & set(annihilation))` has
an unspecified order, but a result with two elements raises. -/
noncomputable def compactExcitationCircuit (theta : ℂ) (creation annihilation : List ℕ) (qubitExcitations : Bool) :
    Except Exc Circuit := do
  if creation.length ≠ annihilation.length then .error .valueError
  else do
    let creationUnique := creation.filter (· ∉ annihilation)
    let annihilationUnique := annihilation.filter (· ∉ creation)
    let gsdControl := (creation.filter (· ∈ annihilation)).dedup
    if gsdControl.length > 1 then .error .valueError
    else do
      let (gsdSign, gsdUnique) ← (match gsdControl with
        | [] => pure ((1 : ℤ), false)
        | g :: _ => do
          let d ← gsdDuplicate creation annihilation g
          pure (-1, decide (d = [0, 0] ∨ d = [1, 1])) : Except Exc (ℤ × Bool))
      let stair ← (if qubitExcitations then pure ([] : Circuit)
        else if gsdUnique then fermionSignCircuit creationUnique annihilationUnique
        else fermionSignCircuit creation annihilation : Except Exc Circuit)
      let e ← qubitExcitation theta creationUnique annihilationUnique gsdControl gsdSign qubitExcitations
      let circ := Circuit.addCircuit (Circuit.addCircuit [] stair) e
      pure (if qubitExcitations then circ else Circuit.addCircuit circ stair.adjoint)

end QF
