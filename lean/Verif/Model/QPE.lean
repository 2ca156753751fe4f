import Verif.Model.QFT
import Verif.Model.Expo
import Verif.Model.Measure
import Mathlib.Analysis.SpecialFunctions.Log.Base

/-!
Model of `qpea/qpe.py` (class `QPE`).  Printing and `verify_run` (all required attributes are set by `run`) are left out; floating point
is exact; `scipy.stats.mode` is a parameter.
-/
namespace QF

/-- `round(x)` of python: the nearest integer, ties to the even one -/
noncomputable def pyRound (x : ℝ) : ℤ :=
  if x - ⌊x⌋ < 1 / 2 then ⌊x⌋
  else if 1 / 2 < x - ⌊x⌋ then ⌊x⌋ + 1
  else if ⌊x⌋ % 2 = 0 then ⌊x⌋ else ⌊x⌋ + 1

/-- `int(np.log2(x))`, `x > 0`: truncation towards zero -/
noncomputable def intLog2 (x : ℝ) : ℤ := if 0 ≤ Real.logb 2 x then ⌊Real.logb 2 x⌋ else ⌈Real.logb 2 x⌉

/-- the attributes `QPE.run` reads and its arguments -/
structure QpeAlg where
  /-- `self._nqb` -/
  nqb : ℕ
  /-- `self._Uprep` -/
  uprep : Circuit := []
  /-- `self._qb_ham` -/
  ham : QubitOperator
  /-- `self._trotter_number` -/
  trotterNumber : ℤ := 1
  /-- `self._fast` -/
  fast : Bool := true
  /-- `guess_energy` -/
  guess : ℝ
  /-- `t` -/
  t : ℝ := 1
  /-- `nruns` -/
  nruns : ℕ := 20
  /-- `success_prob` -/
  successProb : ℝ := 1 / 2
  /-- `num_precise_bits` -/
  preciseBits : ℕ := 4

/-- what `QPE.run` leaves in the attributes of the object -/
structure QpeResult where
  /-- `self._Uqpe` -/
  circuit : Circuit
  /-- `z_readouts` (local) -/
  readouts : List (List ℕ)
  /-- `self._phases` -/
  phases : List ℝ
  /-- `self._final_phase` -/
  finalPhase : ℝ
  /-- `self._mode_phase` -/
  modePhase : ℝ
  /-- `self._Egs` -/
  energy : ℝ
  /-- `self._mode_energy` -/
  modeEnergy : ℝ
  /-- `self._n_cnot` -/
  nCnot : ℤ

namespace QpeAlg

/-- `self._n_ancilla`, qpe.py:41-43.  `eps = 0` divides by zero; `np.log2` of a number that is not positive is `nan` or `-inf`, and
`int` of it raises.  A negative number of ancillas (possible only for `success_prob > 1`) is taken as 0. -/
noncomputable def nAncilla (A : QpeAlg) : Except Exc ℕ :=
  let eps := 1 - A.successProb
  if eps = 0 then .error .zeroDivisionError
  else if 2 + 1 / eps ≤ 0 then .error .valueError
  else .ok ((A.preciseBits : ℤ) + intLog2 (2 + 1 / eps)).toNat

/-- `get_Uhad()`, qpe.py:181-204: Hadamard gates on qubits `_abegin.._aend` -/
noncomputable def uhad (A : QpeAlg) (na : ℕ) : Except Exc Circuit :=
  (List.range' A.nqb na).foldlM (fun c j => do
    let g ← pyGate2 "H" j j
    pure (Circuit.addGate c g)) []

/-- `temp_op` of `get_dynamics_circ`, qpe.py:218-227: the terms that are not multiples of the identity, times `-1.0j * self._t` -/
noncomputable def tempOp (A : QpeAlg) : QubitOperator :=
  A.ham.foldl (fun T s => if s.2.length = 0 then T else QubitOperator.addTerm T (-Complex.I * s.1 * A.t) s.2) []

/-- `scalar_terms`, qpe.py:219-223 -/
noncomputable def scalarTerms (A : QpeAlg) : List ℂ :=
  A.ham.foldl (fun l s => if s.2.length = 0 then l ++ [s.1 * (A.t : ℂ)] else l) []

/-- one iteration of the loop over the ancillas, qpe.py:230-248 -/
noncomputable def dynStep (A : QpeAlg) (U : Circuit) (n : ℕ) : Except Exc Circuit := do
  let anc := A.nqb + n
  let (expn, _) ← trotterizeWCRz A.tempOp anc 1 false A.trotterNumber 1
  let r ← pyGate3 "R" anc anc (-1 * A.scalarTerms.sum * ((2 ^ n : ℕ) : ℂ))
  pure ((List.range (2 ^ n)).foldl (fun U _ => Circuit.addCircuit U expn) (U.addGate r))

/-- `get_dynamics_circ()`, qpe.py:206-250 -/
noncomputable def dynamics (A : QpeAlg) (na : ℕ) : Except Exc Circuit := (List.range na).foldlM A.dynStep []

/-- `get_qft_circuit(direct)`, qpe.py:252-290: the loop is that of `qft_circuit` (`qftLoop`), there is no swap -/
noncomputable def qftCirc (A : QpeAlg) (na : ℕ) (direct : String) : Except Exc Circuit := do
  let c ← qftLoop A.nqb na
  if direct = "forward" then pure c
  else if direct = "reverse" then pure c.adjoint
  else .error .valueError

/-- `get_z_circuit()`, qpe.py:292-315 -/
noncomputable def zCirc (A : QpeAlg) (na : ℕ) : Except Exc Circuit :=
  (List.range' A.nqb na).foldlM (fun c j => do
    let g ← pyGate2 "Z" j j
    pure (Circuit.addGate c g)) []

/-- `self._Uqpe`, qpe.py:60-70 -/
noncomputable def uqpe (A : QpeAlg) (na : ℕ) : Except Exc Circuit := do
  let h ← A.uhad na
  let c := (Circuit.addCircuit [] h).addCircuit A.uprep
  let d ← A.dynamics na
  let c := c.addCircuit d
  let f ← A.qftCirc na "reverse"
  pure (c.addCircuit f)

/-- `sum(z / (2**i) for i, z in enumerate(readout, start=1))`, qpe.py:87, 98-100 -/
noncomputable def phaseOf (z : List ℕ) : ℝ := (z.zipIdx.map fun p => (p.1 : ℝ) / 2 ^ (p.2 + 1)).sum

/-- `final_readout`, qpe.py:91-96: bit by bit, 1 when more than half of the readouts have 1 -/
noncomputable def majority (A : QpeAlg) (na : ℕ) (z : List (List ℕ)) : Except Exc (List ℕ) :=
  (List.range na).mapM fun i => do
    let l ← z.mapM fun (r : List ℕ) => ((r[i]?).elim (.error .indexError) pure : Except Exc ℕ)
    if A.nruns = 0 then .error .zeroDivisionError
    pure (if 1 / 2 < ((l.sum : ℕ) : ℝ) / A.nruns then 1 else 0)

/-- `self._guess_periods`, qpe.py:53 -/
noncomputable def guessPeriods (A : QpeAlg) : ℤ := pyRound (A.t * A.guess / (-2 * Real.pi))

/-- `E_u`, `E_l` and the choice between them, qpe.py:102-104, 108-112 -/
noncomputable def energyOf (A : QpeAlg) (phase : ℝ) : Except Exc ℝ :=
  if A.t = 0 then .error .zeroDivisionError
  else
    let eu := -2 * Real.pi * (phase + A.guessPeriods - 1) / A.t
    let el := -2 * Real.pi * (phase + A.guessPeriods - 0) / A.t
    .ok (if |el - A.guess| < |eu - A.guess| then el else eu)

/-- `run(...)`, qpe.py:20-133; `mode` is `scipy.stats.mode(...).mode` -/
noncomputable def run (A : QpeAlg) (s : Sampler) (mode : List ℝ → ℝ) : Except Exc QpeResult := do
  let na ← A.nAncilla
  let c ← A.uqpe na
  let q ← (Computer.init (A.nqb + na)).applyCircuit c
  let z ← (if A.fast then pure (q.measureZReadoutsFast s A.nqb (A.nqb + na - 1) A.nruns) else do
    let zc ← A.zCirc na
    let (z, _) ← q.measureReadouts s zc A.nruns
    pure z)
  let phases := z.map phaseOf
  let fin ← A.majority na z
  let finalPhase := phaseOf fin
  let e ← A.energyOf finalPhase
  let modePhase := mode phases
  let me ← A.energyOf modePhase
  pure { circuit := c, readouts := z, phases := phases, finalPhase := finalPhase, modePhase := modePhase, energy := e, modeEnergy := me, nCnot := c.getNumCnots }

end QpeAlg

/-- `scipy.stats.mode`: an element of a non-empty list, with the largest number of occurrences -/
def IsMode (mode : List ℝ → ℝ) : Prop := ∀ l : List ℝ, l ≠ [] → mode l ∈ l ∧ ∀ x ∈ l, l.count x ≤ l.count (mode l)

end QF
