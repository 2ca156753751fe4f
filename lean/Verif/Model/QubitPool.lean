import Verif.Model.Measure

/-!
Model of qubit_op_pool.cc / qubit_op_pool.h.  The type `QubitOpPool` (a list of coefficient/operator pairs) is in
Model/Measure.lean.
-/
namespace QF

namespace QubitOpPool

/-- `add_term`, qubit_op_pool.cc:13-15 -/
def addTerm (P : QubitOpPool) (z : ℂ) (A : QubitOperator) : QubitOpPool := P ++ [(z, A)]

/-- `set_coeffs`, qubit_op_pool.cc:17-25 -/
def setCoeffs (P : QubitOpPool) (zs : List ℂ) : Except Exc QubitOpPool :=
  if zs.length ≠ P.length then .error .invalidArgument
  else .ok (List.zipWith (fun z t => (z, t.2)) zs P)

/-- `set_op_coeffs`, qubit_op_pool.cc:27-35.  The operators before the first mismatch have been changed when it throws;
the model returns the exception only. -/
def setOpCoeffs (P : QubitOpPool) (zs : List ℂ) : Except Exc QubitOpPool :=
  P.mapM fun t => do
    if zs.length ≠ t.2.length then .error .invalidArgument
    else return (t.1, ← t.2.setCoeffs zs)

/-- `set_terms`, qubit_op_pool.cc:37-43: it appends, it does not clear -/
def setTerms (P : QubitOpPool) (ts : List (ℂ × QubitOperator)) : QubitOpPool := ts.foldl (fun P t => P ++ [t]) P

/-- the product of one pair in `square`, qubit_op_pool.cc:55-60, 67-71 -/
noncomputable def squarePair (I J : ℂ × QubitOperator) : Except Exc (ℂ × QubitOperator) := do
  let IJ := QubitOperator.addOp [] I.2
  let IJ ← IJ.operatorProduct J.2 false true
  let IJ ← IJ.simplify
  return ((starRingEnd ℂ) I.1 * J.1, IJ)

/-- the pairs visited by `square` in order, qubit_op_pool.cc:53-54, 65-66 -/
def squarePairs (P : QubitOpPool) (upper : Bool) : List ((ℂ × QubitOperator) × (ℂ × QubitOperator)) :=
  if upper then
    (List.range P.length).flatMap fun I => (List.range' I (P.length - I)).map fun J => (P.getD I (0, []), P.getD J (0, []))
  else P.flatMap fun I => P.map fun J => (I, J)

/-- `square`, qubit_op_pool.cc:49-76 -/
noncomputable def square (P : QubitOpPool) (upper : Bool) : Except Exc QubitOpPool :=
  (P.squarePairs upper).mapM fun p => squarePair p.1 p.2

/-- `join_op_from_right`, qubit_op_pool.cc:78-83 -/
noncomputable def joinRight (P : QubitOpPool) (q : QubitOperator) : Except Exc QubitOpPool :=
  P.mapM fun t => do return (t.1, ← (← t.2.operatorProduct q false true).simplify)

/-- `join_op_from_right_lazy`, qubit_op_pool.cc:85-89 -/
noncomputable def joinRightLazy (P : QubitOpPool) (q : QubitOperator) : Except Exc QubitOpPool :=
  P.mapM fun t => do return (t.1, ← t.2.operatorProduct q false false)

/-- `join_op_from_left`, qubit_op_pool.cc:91-101 -/
noncomputable def joinLeft (P : QubitOpPool) (q : QubitOperator) : Except Exc QubitOpPool :=
  P.mapM fun t => do
    let temp := QubitOperator.addOp [] q
    let temp ← temp.operatorProduct t.2 false true
    return (t.1, ← temp.simplify)

/-- `join_as_commutator`, qubit_op_pool.cc:103-122 -/
noncomputable def joinCommutator (P : QubitOpPool) (q : QubitOperator) : Except Exc QubitOpPool :=
  P.mapM fun t => do
    let HAm := QubitOperator.addOp [] q
    let HAm ← HAm.operatorProduct t.2 false true
    let AmH := QubitOperator.addOp [] t.2
    let AmH ← AmH.operatorProduct q false true
    let AmH := AmH.multCoeffs (-1)
    let HAm := HAm.addOp AmH
    return (t.1, ← HAm.simplify)

/-- `convert_str.substr(d, 1)` for `convert_str = "0123456789"`, qubit_op_pool.cc:196-200 -/
def digitStr (d : ℕ) : List Char := (['0', '1', '2', '3', '4', '5', '6', '7', '8', '9'].drop d).take 1

/-- `to_base4`, qubit_op_pool.cc:195-202, for nonnegative `I`; strings are lists of characters -/
def toBase4 (I : ℕ) : List Char :=
  if I < 4 then digitStr I else toBase4 (I / 4) ++ digitStr (I % 4)
termination_by I
decreasing_by omega

/-- `pauli_idx_str`, qubit_op_pool.cc:204-210.  `nqb - I_str.length()` is unsigned, so a string longer than `nqb` makes the
loop run until memory or the `int` counter is exhausted: `.diverges`. -/
def pauliIdxStr (s : List Char) (nqb : ℕ) : Except Exc (List Char) :=
  if nqb < s.length then .error .diverges else .ok (List.replicate (nqb - s.length) '0' ++ s)

/-- the map `paulis`, qubit_op_pool.cc:126-127, 147-148; `operator[]` gives the empty string for other keys -/
def paulis (c : List Char) : String :=
  if c = ['0'] then "I" else if c = ['1'] then "X" else if c = ['2'] then "Y" else if c = ['3'] then "Z" else ""

/-- one pass of the loop body, qubit_op_pool.cc:131-142, 152-166: the circuit and the number of Y gates -/
noncomputable def poolCircuit (nqb I : ℕ) : Except Exc (Circuit × ℕ) := do
  let paulistr ← pauliIdxStr (toBase4 I) nqb
  if paulistr.length ≠ nqb then .error .invalidArgument
  else
    (List.range nqb).foldlM (fun (s : Circuit × ℕ) k => do
      let c := (paulistr.drop k).take 1
      let ny := if c = ['2'] then s.2 + 1 else s.2
      if c ≠ ['0'] then
        let g ← makeGate (paulis c) k k 0
        return (s.1 ++ [g], ny)
      else return (s.1, ny)) ([], 0)

/-- `fill_pool`, qubit_op_pool.cc:124-175.  `4^nqb` is converted to `int`: from 16 qubits on the conversion is undefined. -/
noncomputable def fillPool (P : QubitOpPool) (poolType : String) (nqb : ℕ) : Except Exc QubitOpPool :=
  if poolType = "complete_qubit" then
    if 2 ^ 31 ≤ 4 ^ nqb then .error .undefinedBehaviour
    else (List.range (4 ^ nqb)).foldlM (fun (P : QubitOpPool) I => do
      let (aI, _) ← poolCircuit nqb I
      return P.addTerm 1 (QubitOperator.addTerm [] 1 aI)) P
  else if poolType = "cqoy" then
    if 2 ^ 31 ≤ 4 ^ nqb then .error .undefinedBehaviour
    else (List.range (4 ^ nqb)).foldlM (fun (P : QubitOpPool) I => do
      let (aI, ny) ← poolCircuit nqb I
      if ny % 2 ≠ 0 then return P.addTerm 1 (QubitOperator.addTerm [] 1 aI) else return P) P
  else .error .invalidArgument

end QubitOpPool
end QF
