import Verif.Model.SQPool
import Verif.Model.Expo
import Verif.Model.Compact
import Verif.Model.Measure

/-!
Model of the unitary coupled-cluster ansatz and of the energies and gradients of the UCC algorithms: `abc/ansatz.py`,
`abc/algorithm.py` (`AnsatzAlgorithm`), `abc/uccvqeabc.py`.  Only the "fast" mode is modelled (the slow branch of
`measure_energy` refers to an undefined name and raises).  Printing, counters and the noise options are left out.
Python floats are exact real numbers.
-/
namespace QF

open SQOperator (DescSort)
open QubitOperator (SortOracle)

/-- the attributes of an algorithm object that the functions below read -/
structure UccAlg where
  /-- `self._nqb` -/
  nqb : ℕ
  /-- `self.computer`, if the algorithm was initialised with a computer -/
  computer : Option Computer := none
  /-- `self._Uprep` -/
  uprep : Circuit := []
  /-- `self._qb_ham` -/
  ham : QubitOperator
  /-- the elements of `self._pool_obj` -/
  pool : List (ℂ × SQOperator)
  /-- `self._pool_type == "sa_SD"` -/
  saSD : Bool := false
  /-- `self._tops` -/
  tops : List ℕ
  /-- `self._tamps` -/
  tamps : List ℝ
  /-- `self._compact_excitations` -/
  compact : Bool := false
  /-- `self._qubit_excitations` -/
  qubitExc : Bool := false
  /-- `self._trotter_number` -/
  trotterNumber : ℤ := 1

namespace UccAlg

/-- `self._pool_obj[top]`: bindings.cc:87, `pool.terms()[i]`, is unchecked -/
def poolAt (A : UccAlg) (i : ℕ) : Except Exc (ℂ × SQOperator) :=
  match A.pool[i]? with
  | some t => .ok t
  | none => .error .undefinedBehaviour

/-- the two-term operators made from the first half of the terms of a spin-adapted pool element, ansatz.py:46-55 -/
def saSplit (op : SQOperator) : List SQOperator := (op.take (op.length / 2)).map fun x => [(x.1, x.2.1, x.2.2), (-x.1, x.2.2, x.2.1)]

/-- the elements that one (amplitude, operator index) pair adds to `temp_pool`, ansatz.py:38-58 -/
noncomputable def tempElems (A : UccAlg) (p : ℝ × ℕ) : Except Exc (List (ℂ × SQOperator)) := do
  let e ← A.poolAt p.2
  if A.saSD then pure ((saSplit e.2).map fun s => ((p.1 : ℂ), s)) else pure [((p.1 : ℂ), e.2)]

/-- the loop that fills `temp_pool`, ansatz.py:35-58 -/
noncomputable def tempPool (A : UccAlg) (tamps : List ℝ) : Except Exc (List (ℂ × SQOperator)) :=
  (List.zip tamps A.tops).foldlM (fun l p => do
    let e ← A.tempElems p
    pure (l ++ e)) []

/-- `ansatz_circuit(amplitudes)`, ansatz.py:25-82, `amplitudes` given -/
noncomputable def ansatzWith (o : DescSort) (so : SortOracle) (A : UccAlg) (tamps : List ℝ) : Except Exc Circuit := do
  let temp ← A.tempPool tamps
  if A.compact then
    temp.foldlM (fun U t => do
      let x ← pyIndex t.2 1
      let c ← compactExcitationCircuit (t.1 * x.1) x.2.1 x.2.2 A.qubitExc
      pure (U.addCircuit c)) []
  else do
    let Q ← SQOpPool.getQubitOperator o so { terms := temp } "commuting_grp_lex" true A.qubitExc
    let (U, ph) ← trotterize Q 1 A.trotterNumber
    if open Classical in ph ≠ 1 then .error .valueError else pure U

/-- `ansatz_circuit(amplitudes)`, ansatz.py:25-82 -/
noncomputable def ansatzCircuit (o : DescSort) (so : SortOracle) (A : UccAlg) (amplitudes : Option (List ℝ) := none) : Except Exc Circuit :=
  A.ansatzWith o so (amplitudes.getD A.tamps)

/-- `build_Uvqc(amplitudes)`, algorithm.py:271-288 -/
noncomputable def buildUvqc (o : DescSort) (so : SortOracle) (A : UccAlg) (amplitudes : Option (List ℝ) := none) : Except Exc Circuit := do
  let U ← A.ansatzCircuit o so amplitudes
  pure ((Circuit.addCircuit [] A.uprep).addCircuit U)

/-- `get_initial_computer()`, algorithm.py:476-480 -/
noncomputable def initialComputer (A : UccAlg) : Computer := A.computer.getD (Computer.init A.nqb)

/-- `measure_energy(Ucirc, computer)` in fast mode, algorithm.py:309-334; `par` is how `direct_op_exp_val` was compiled and
scheduled -/
noncomputable def measureEnergy (A : UccAlg) (par : Option Schedule) (U : Circuit) (computer : Option Computer := none) : Except Exc ℝ := do
  let q ← (computer.getD (Computer.init A.nqb)).applyCircuit U
  let (v, _) ← q.directOpExpVal par A.ham
  pure v.re

/-- `energy_feval(params)`, algorithm.py:458-474 -/
noncomputable def energyFeval (o : DescSort) (so : SortOracle) (par : Option Schedule) (A : UccAlg) (params : List ℝ) : Except Exc ℝ := do
  let U ← A.buildUvqc o so (some params)
  A.measureEnergy par U (some A.initialComputer)

/-- `Kmu = pool[tops[mu]][1].jw_transform(...)`, `Kmu.mult_coeffs(pool[tops[mu]][0])`, uccvqeabc.py:155-157, 177-179 -/
noncomputable def gradK (o : DescSort) (A : UccAlg) (mu : ℕ) : Except Exc QubitOperator := do
  let top ← pyIndex A.tops mu
  let e ← A.poolAt top
  let (K, _) ← e.2.jwTransform o A.qubitExc
  pure (K.multCoeffs e.1)

/-- `2.0 * np.real(np.vdot(sig, temp))`, uccvqeabc.py:161-162, 243-244 -/
noncomputable def gradVal (sig temp : Computer) : Except Exc ℝ := do
  let v ← sig.dot temp
  pure (2 * v.re)

/-- `Umu` for one two-term operator of a spin-adapted element, uccvqeabc.py:210-224 -/
noncomputable def undoFactor (o : DescSort) (A : UccAlg) (t : ℝ) (s : SQOperator) : Except Exc Circuit := do
  let (Q, _) ← s.jwTransform o A.qubitExc
  let (U, ph) ← trotterize Q (-(t : ℂ)) A.trotterNumber
  if open Classical in ph ≠ 1 then .error .valueError else pure U

/-- `Umu`, the circuit that removes factor `mu + 1` from the state, uccvqeabc.py:182-237 -/
noncomputable def undoCircuit (o : DescSort) (A : UccAlg) (t : ℝ) (mu : ℕ) (Kprev : QubitOperator) : Except Exc Circuit := do
  let top ← pyIndex A.tops (mu + 1)
  let e ← A.poolAt top
  if A.compact then
    if A.saSD then
      (e.2.take (e.2.length / 2)).foldlM (fun U x => do
        let c ← compactExcitationCircuit ((t : ℂ) * x.1) x.2.2 x.2.1 A.qubitExc
        pure (U.addCircuit c)) []
    else do
      let x ← pyIndex e.2 1
      let c ← compactExcitationCircuit (-(t : ℂ) * x.1) x.2.1 x.2.2 A.qubitExc
      pure (Circuit.addCircuit [] c)
  else if A.saSD then
    (saSplit e.2).foldlM (fun U s => do
      let c ← A.undoFactor o t s
      pure (U.addCircuit c)) []
  else do
    let (U, ph) ← trotterize Kprev (-(t : ℂ)) A.trotterNumber
    if open Classical in ph ≠ 1 then .error .valueError else pure U

/-- the loop `for mu in reversed(range(M - 1))`, uccvqeabc.py:165-247: the values already computed are in `grads`, for
`mu + 1, mu + 2, …` -/
noncomputable def gradLoop (o : DescSort) (A : UccAlg) (params : List ℝ) : ℕ → QubitOperator → Computer → Computer → List ℝ → Except Exc (List ℝ)
  | 0, _, _, _, grads => .ok grads
  | mu + 1, Kprev, psi, sig, grads => do
    let t ← pyIndex params (mu + 1)
    let K ← A.gradK o mu
    let U ← A.undoCircuit o t mu Kprev
    let sig ← sig.applyCircuit U
    let psi ← psi.applyCircuit U
    let temp ← psi.applyOperator K
    let g ← gradVal sig temp
    gradLoop o A params mu K psi sig (g :: grads)

/-- `measure_gradient(params)`, uccvqeabc.py:122-251 (`params = None` is `self._tamps`).  For `M = 0` python evaluates
`tops[-1]` and then `grads[-1]` of an empty array. -/
noncomputable def measureGradient (o : DescSort) (so : SortOracle) (A : UccAlg) (params : Option (List ℝ) := none) : Except Exc (List ℝ) := do
  let U ← A.buildUvqc o so params
  let psi ← A.initialComputer.applyCircuit U
  let sig ← psi.applyOperator A.ham
  match A.tamps.length with
  | 0 => .error .indexError
  | M + 1 =>
    let K ← A.gradK o M
    let temp ← psi.applyOperator K
    let g ← gradVal sig temp
    A.gradLoop o (params.getD A.tamps) M K psi sig [g]

/-- `measure_gradient3()`, uccvqeabc.py:253-283 -/
noncomputable def measureGradient3 (o : DescSort) (so : SortOracle) (A : UccAlg) : Except Exc (List ℝ) := do
  let U ← A.buildUvqc o so
  let psi ← A.initialComputer.applyCircuit U
  let sig ← psi.applyOperator A.ham
  A.pool.mapM fun e => do
    let (K, _) ← e.2.jwTransform o A.qubitExc
    let temp ← psi.applyOperator (K.multCoeffs e.1)
    gradVal sig temp

end UccAlg
end QF
