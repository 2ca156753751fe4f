import Verif.Model.UCC
import Verif.Model.QubitPool

/-!
Model of the commutator route to the gradients of the pool operators: `abc/uccvqeabc.py` (`fill_commutator_pool`, `measure_operators`).
Printing is left out.
-/
namespace QF
namespace UccAlg

open SQOperator (DescSort)

/-- `fill_commutator_pool()`, uccvqeabc.py:85-89: `self._commutator_pool`, and the object, whose pool operators `get_qubit_op_pool` leaves
simplified.  `get_qubit_op_pool` has no argument for `self._qubit_excitations`. -/
noncomputable def fillCommutatorPool (o : DescSort) (A : UccAlg) : Except Exc (QubitOpPool × UccAlg) := do
  let (Q, P) ← SQOpPool.getQubitOpPool o { terms := A.pool }
  let C ← Q.joinCommutator A.ham
  return (C, { A with pool := P.terms })

/-- `measure_operators(operators, Ucirc, idxs)` in fast mode, uccvqeabc.py:91-120; `par` is the build of the library.  The assertion compares the
imaginary parts with zeros, so that only its absolute tolerance counts. -/
noncomputable def measureOperators (A : UccAlg) (par : Option Schedule) (ops : QubitOpPool) (U : Circuit) (idxs : List ℤ := []) : Except Exc (List ℝ) := do
  let q ← A.initialComputer.applyCircuit U
  let (v, _) ← if idxs = [] then q.directOpplExpVal par ops else q.directIdxdOpplExpVal par ops idxs
  if v.any (fun z => decide (1e-7 < |z.im|)) then .error .assertionError
  return v.map Complex.re

end UccAlg
end QF
