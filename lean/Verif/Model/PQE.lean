import Verif.Model.UCC
import Verif.Model.StatePrep
import Verif.Model.QubitBasis

/-!
Model of the residuals of the projective quantum eigensolver: `ucc/uccnpqe.py` (`fill_excited_dets`, `get_residual_vector`,
`initialize_ansatz`) and `abc/ansatz.py` (`get_res_over_mpdenom`).  The noise option, counters and printing are left out.
-/
namespace QF

open SQOperator (DescSort)
open QubitOperator (SortOracle)

/-- the additional attributes the PQE functions read -/
structure PqeAlg extends UccAlg where
  /-- `self._ref` -/
  ref : List ℕ
  /-- `self._refprep` -/
  refprep : Circuit

namespace PqeAlg

/-- the lists of created and annihilated orbitals of the first term of a pool element, in the order that excites the reference:
uccnpqe.py:201-206, ansatz.py:139-144 -/
def exciteLists (ref : List ℕ) (op : SQOperator) : Except Exc (List ℕ × List ℕ) := do
  let t ← pyIndex op 0
  match t.2.2.getLast? with
  | none => .error .indexError
  | some p => do
    let occ ← pyIndex ref p
    if occ ≠ 0 then pure (t.2.1, t.2.2) else pure (t.2.2, t.2.1)

/-- `for p in reversed(l): if det.get_bit(p) == (not v): destroyed …; det.set_bit(p, v)`, uccnpqe.py:220-233.  The code sets a
flag and raises after both loops; nothing in between can raise. -/
def setBits (v : Bool) (l : List ℕ) (det : QubitBasis) : Except Exc QubitBasis :=
  l.reverse.foldlM (fun d p => if 64 ≤ p then .error .undefinedBehaviour else
    if d.getBit p = v then .error .valueError else pure (d.setBit p v)) det

/-- the excited determinant, uccnpqe.py:215-238.  `QubitBasis(self._nqb)` starts from the basis state number `nqb`. -/
def excitedDet (nqb : ℕ) (ref cre ann : List ℕ) : Except Exc QubitBasis := do
  let d := ref.zipIdx.foldl (fun (d : QubitBasis) p => d.setBit p.2 (p.1 ≠ 0)) (QubitBasis.ofNat nqb)
  let d ← setBits false ann d
  setBits true cre d

/-- one iteration of `fill_excited_dets`, uccnpqe.py:195-247 -/
noncomputable def excitedDetOf (o : DescSort) (A : PqeAlg) (e : ℂ × SQOperator) : Except Exc (ℕ × ℂ) := do
  let (cre, ann) ← exciteLists A.ref e.2
  let d ← excitedDet A.nqb A.ref cre ann
  let I := d.index
  let q ← (Computer.init A.nqb).applyCircuit A.refprep
  let (Q, _) ← e.2.jwTransform o A.qubitExc
  let q ← q.applyOperator Q
  let ph ← pyIndex q.coeff I
  pure (I, ph)

/-- `fill_excited_dets()`, uccnpqe.py:193-247 -/
noncomputable def fillExcitedDets (o : DescSort) (A : PqeAlg) : Except Exc (List (ℕ × ℂ)) := A.pool.mapM (A.excitedDetOf o)

/-- `get_residual_vector(trial_amps)`, uccnpqe.py:249-292; `dets` is `self._excited_dets` -/
noncomputable def residualVector (o : DescSort) (so : SortOracle) (A : PqeAlg) (dets : List (ℕ × ℂ)) (ts : List ℝ) : Except Exc (List ℂ) :=
  if A.saSD then .error .valueError else do
    let U ← A.ansatzCircuit o so (some ts)
    let q ← (Computer.init A.nqb).applyCircuit A.uprep
    let q ← q.applyCircuit U
    let q ← q.applyOperator A.ham
    let q ← q.applyCircuit U.adjoint
    dets.mapM fun d => do
      let c ← pyIndex q.coeff d.1
      let r := c * d.2
      if open Classical in r.im ≠ 0 then .error .valueError else pure r

/-- `get_res_over_mpdenom(residuals)`, ansatz.py:121-154 -/
noncomputable def resOverMpdenom (A : PqeAlg) (orbE : List ℝ) (residuals : List ℝ) : Except Exc (List ℝ) :=
  A.tops.zipIdx.mapM fun m => do
    let e ← A.poolAt m.1
    let (cre, ann) ← exciteLists A.ref e.2
    let ea ← ann.mapM (pyIndex orbE)
    let ec ← cre.mapM (pyIndex orbE)
    let r ← pyIndex residuals m.2
    pure (r / (ea.sum - ec.sum))

/-- `initialize_ansatz()`, uccnpqe.py:294-300: every pool operator, with amplitude 0 -/
noncomputable def initializeAnsatz (A : PqeAlg) : PqeAlg :=
  { A with tops := A.tops ++ List.range A.pool.length, tamps := A.tamps ++ List.replicate A.pool.length 0 }

end PqeAlg
end QF
