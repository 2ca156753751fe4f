import Verif.Model.Krylov
import Verif.Model.Experiment

/-!
Model of the Hadamard-test route of SRQK: `matrix_element` and `build_qk_mats_realistic`, qkd/srqk.py.
-/
namespace QF

namespace QkAlg

/-- `temp_op1`, `temp_op2`: the terms of the Hamiltonian times `-1.0j * n * dt`, srqk.py:250-254, 265-269 -/
noncomputable def timeOp (A : QkAlg) (n : ℕ) : QubitOperator :=
  A.ham.foldl (fun T t => QubitOperator.addTerm T (-Complex.I * n * A.dt * t.1) t.2) []

/-- `cV_l`: every gate of the string, controlled by the ancilla, srqk.py:318-322 -/
noncomputable def ctrlString (anc : ℕ) (V : Circuit) : Except Exc Circuit :=
  V.foldlM (fun C g => do
    let x ← pyGate2 ("c" ++ g.label) g.target anc
    pure (C.addGate x)) []

/-- `X_op` or `Y_op`, srqk.py:293-301, 336-344 -/
noncomputable def ancOp (letter : String) (anc : ℕ) : Except Exc QubitOperator := do
  let g ← pyGate2 letter anc anc
  pure (QubitOperator.addTerm [] 1 (Circuit.addGate [] g))

/-- the circuit and the two measurements, srqk.py:281-311, 326-353, without the phases; `cV` is absent (`[]`) for the overlap -/
noncomputable def hadamardTest (A : QkAlg) (Uk cV Ub : Circuit) : Except Exc ℂ := do
  let h ← pyGate2 "H" A.nqb A.nqb
  let x ← pyGate2 "X" A.nqb A.nqb
  let x' ← pyGate2 "X" A.nqb A.nqb
  let cir := (((((A.uprep.addGate h).addCircuit Uk).addCircuit cV).addGate x).addCircuit Ub).addGate x'
  let X ← ancOp "X" A.nqb
  let Y ← ancOp "Y" A.nqb
  let vx ← Experiment.perfectAvg { nQubits := A.nqb + 1, generator := cir, operator := X, nSamples := 100 }
  let vy ← Experiment.perfectAvg { nQubits := A.nqb + 1, generator := cir, operator := Y, nSamples := 100 }
  pure ((vx : ℂ) + Complex.I * (vy : ℂ))

/-- `matrix_element(m, n, use_op)`, srqk.py:220-355 -/
noncomputable def matrixElement (A : QkAlg) (m n : ℕ) (useOp : Bool) : Except Exc ℂ := do
  let (C1, ph1) ← trotterizeWCRz (A.timeOp n) A.nqb 1 false A.trotterNumber 1
  let Uk := C1.foldl Circuit.addGate []
  let (C2, ph2) ← trotterizeWCRz (A.timeOp m) A.nqb 1 false A.trotterNumber 1
  let Ub := C2.foldl Circuit.addGate []
  if !useOp then do
    let v ← A.hadamardTest Uk [] Ub
    pure (v * ph1 * (starRingEnd ℂ) ph2)
  else
    A.ham.foldlM (fun value t => do
      let cV ← ctrlString A.nqb t.2
      let v ← A.hadamardTest Uk cV Ub
      pure (value + t.1 * (v * ph1 * (starRingEnd ℂ) ph2))) 0

/-- `build_qk_mats_realistic()`, srqk.py:206-217: `(s_mat, h_mat)` -/
noncomputable def realisticMats (A : QkAlg) : Except Exc (NMat × NMat) :=
  (List.range A.nstates).foldlM (fun M p => ((List.range A.nstates).filter fun q => p ≤ q).foldlM (fun (M : NMat × NMat) q => do
    let h ← A.matrixElement p q true
    let s ← A.matrixElement p q false
    pure ((M.1.set p q s).set q p ((starRingEnd ℂ) s), (M.2.set p q h).set q p ((starRingEnd ℂ) h))) M) zeroMats

end QkAlg
end QF
