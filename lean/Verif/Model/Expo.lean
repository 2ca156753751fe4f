import Verif.Model.QubitOperator

/-!
Model of `utils/exponentiate.py` and `utils/trotterization.py`.
Floating point is modelled by exact real and complex numbers.
-/
namespace QF

/-- python's `qforte.gate(type, target, control, parameter)` where the qubits may still be `None`
(pybind11 refuses `None` for a `size_t`), bindings.cc:282-290 -/
noncomputable def pyGate3Opt (type : String) (target control : Option ℕ) (parameter : ℂ) : Except Exc Gate :=
  match target, control with
  | some t, some c => pyGate3 type t c parameter
  | _, _ => .error .typeError

/-- python's `qforte.gate("X", ancilla_idx, ancilla_idx)` with a possible `None`, bindings.cc:257-280 -/
noncomputable def pyGate2Opt (type : String) (target control : Option ℕ) : Except Exc Gate :=
  match target, control with
  | some t, some c => pyGate2 type t c
  | _, _ => .error .typeError

/-- the local variables of `exponentiate_pauli_string` -/
structure ExpoVars where
  toZ : Circuit
  toOriginal : Circuit
  cX : Circuit
  prevTarget : Option ℕ
  maxTarget : Option ℕ

/-- body of the loop over the gates of the string, exponentiate.py:42-60 -/
noncomputable def expoStep (v : ExpoVars) (g : Gate) : Except Exc ExpoVars := do
  let v1 ← (if g.label = "X" then do
      let a ← pyGate2 "H" g.target g.control
      let b ← pyGate2 "H" g.target g.control
      pure { v with toZ := v.toZ.addGate a, toOriginal := v.toOriginal.addGate b }
    else if g.label = "Y" then do
      let a ← pyGate3 "Rx" g.target g.control ((Real.pi / 2 : ℝ) : ℂ)
      let b ← pyGate3 "Rx" g.target g.control ((-Real.pi / 2 : ℝ) : ℂ)
      pure { v with toZ := v.toZ.addGate a, toOriginal := v.toOriginal.addGate b }
    else pure v : Except Exc ExpoVars)
  if g.label = "I" then pure v1
  else do
    let v2 ← (match v1.prevTarget with
      | none => pure v1
      | some p => do
        let x ← pyGate2 "cX" g.target p
        pure { v1 with cX := v1.cX.addGate x } : Except Exc ExpoVars)
    pure { v2 with prevTarget := some g.target, maxTarget := some g.target }

/-- `exponentiate_pauli_string`, exponentiate.py:9-87 -/
noncomputable def exponentiatePauliString (coefficient : ℂ) (term : Circuit) (useCRz : Bool := false)
    (ancilla : Option ℕ := none) (useOpen : Bool := false) : Except Exc (Circuit × ℂ) := do
  if 1e-14 < |coefficient.re| then .error .valueError
  else if term.length = 0 then pure ([], Complex.exp coefficient)
  else do
    let v ← term.foldlM expoStep ⟨[], [], [], none, none⟩
    let θ : ℂ := ((-2 * coefficient.im : ℝ) : ℂ)
    let zRot ← (if useCRz then pyGate3Opt "cRz" v.maxTarget ancilla θ
      else pyGate3Opt "Rz" v.maxTarget v.maxTarget θ)
    let e0 := Circuit.addCircuit (Circuit.addCircuit [] v.toZ) v.cX
    let e1 ← (if useOpen then do
        let x ← pyGate2Opt "X" ancilla ancilla
        pure (e0.addGate x)
      else pure e0 : Except Exc Circuit)
    let e2 := e1.addGate zRot
    let e3 ← (if useOpen then do
        let x ← pyGate2Opt "X" ancilla ancilla
        pure (e2.addGate x)
      else pure e2 : Except Exc Circuit)
    pure (Circuit.addCircuit (Circuit.addCircuit e3 v.cX.adjoint) v.toZ.adjoint, 1)

/-- the loop shared by the branches of `trotterize` and `trotterize_w_cRz`: append the exponential of every term and
multiply the phases, trotterization.py:27-35, 49-55, 93-105, 117-128.  `cr = (Use_cRz, ancilla, Use_open_cRz)`. -/
noncomputable def trotterLoop (cr : Bool × Option ℕ × Bool) (f : ℂ → ℂ) (A : QubitOperator) : Except Exc (Circuit × ℂ) :=
  A.foldlM (fun s t => do
    let (gen, ph) ← exponentiatePauliString (f t.1) t.2 cr.1 cr.2.1 cr.2.2
    pure (gen.foldl Circuit.addGate s.1, s.2 * ph)) ([], 1)

/-- `ho_op` of the general branch, trotterization.py:43-47, 110-114: `trotter_number` copies of all terms.
`range(1, trotter_number + 1)` is empty for `trotter_number ≤ 0`. -/
noncomputable def trotterTerms (A : QubitOperator) (factor : ℂ) (number : ℤ) : QubitOperator :=
  (List.range number.toNat).foldl (fun ho _ =>
    A.foldl (fun ho t => QubitOperator.addTerm ho (factor * t.1 / (number : ℂ)) t.2) ho) []

/-- common body of `trotterize` and `trotterize_w_cRz` -/
noncomputable def trotterBody (cr : Bool × Option ℕ × Bool) (A : QubitOperator) (factor : ℂ) (number order : ℤ) :
    Except Exc (Circuit × ℂ) :=
  if number = 1 ∧ order = 1 then trotterLoop cr (fun z => factor * z) A
  else if 1 < order then .error .notImplemented
  else trotterLoop cr id (trotterTerms A factor number)

/-- `trotterize`, trotterization.py:10-57 -/
noncomputable def trotterize (A : QubitOperator) (factor : ℂ := 1) (number order : ℤ := 1) : Except Exc (Circuit × ℂ) :=
  trotterBody (false, none, false) A factor number order

/-- `trotterize_w_cRz`, trotterization.py:60-128 -/
noncomputable def trotterizeWCRz (A : QubitOperator) (ancilla : ℕ) (factor : ℂ := 1) (useOpen : Bool := false)
    (number order : ℤ := 1) : Except Exc (Circuit × ℂ) :=
  trotterBody (true, some ancilla, useOpen) A factor number order

end QF
