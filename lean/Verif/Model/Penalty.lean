import Verif.Model.QubitOperator
import Verif.Model.Compact

/-!
Model of the penalty Hamiltonian of `AnsatzAlgorithm.__init__`, abc/algorithm.py.  The type checks of the dictionary are not
modelled: the three lists have the required types.
-/
namespace QF

/-- `penalty_qop` of one iteration, algorithm.py:412-420: `scale * (op - eig)^2` -/
noncomputable def penaltyTerm (op : QubitOperator) (eig scale : ℝ) : Except Exc QubitOperator := do
  let temp := (QubitOperator.addOp [] op).addTerm (-(eig : ℂ)) []
  let pen ← (QubitOperator.addOp [] temp).operatorProduct temp true true
  pure (pen.multCoeffs scale)

/-- the operator `self._qb_ham` built by `AnsatzAlgorithm.__init__(penalty = {...})`, algorithm.py:365-426; `pqe` says whether the
algorithm is `UCCNPQE` or `SPQE`; `ham` is `self._sys.hamiltonian` -/
noncomputable def penaltyHamiltonian (pqe : Bool) (ham : QubitOperator) (ops : List QubitOperator) (eigs scales : List ℝ) : Except Exc QubitOperator :=
  if pqe then .error .valueError
  else if ¬(ops.length = eigs.length ∧ eigs.length = scales.length) then .error .valueError
  else do
    let pens ← (List.range eigs.length).foldlM (fun (pens : QubitOperator) i => do
      let op ← pyIndex ops i
      let e ← pyIndex eigs i
      let s ← pyIndex scales i
      let pen ← penaltyTerm op e s
      (pens.addOp pen).simplify) []
    ((QubitOperator.addOp [] ham).addOp pens).simplify

end QF
