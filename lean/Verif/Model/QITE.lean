import Verif.Model.Krylov
import Verif.Model.QubitPool
import Verif.Model.SQPool2
import Verif.Model.Measure

/-!
Model of `ite/qite.py` (class `QITE`).  Printing, the summary files and the verbose output are left out; floating point is exact;
`scipy.linalg.lstsq` and `scipy.linalg.eig` are parameters.  A vector of which numpy computes every element as `nan` is `none`.
-/
namespace QF

open SQOperator (DescSort)
open QubitOperator (SortOracle)

/-- `int(x)` of a python float: truncation towards zero -/
noncomputable def pyTrunc (x : ℝ) : ℤ := if 0 ≤ x then ⌊x⌋ else ⌈x⌉

/-- a real numpy matrix -/
abbrev RMat := ℕ → ℕ → ℝ

/-- `scipy.linalg.lstsq(S, b)[0]` for a matrix of `n` rows and columns -/
abbrev LstsqOracle := ℕ → RMat → List ℝ → List ℝ

/-- the attributes `QITE.run` reads and its arguments, qite.py:125-150 -/
structure QiteAlg where
  /-- `self._nqb` -/
  nqb : ℕ
  /-- `self._Uprep` -/
  uprep : Circuit := []
  /-- `self._qb_ham`; `self._Nl` is its number of terms -/
  ham : QubitOperator
  /-- `self._ref` -/
  ref : List ℕ := []
  /-- `self._trotter_number` -/
  trotterNumber : ℤ := 1
  /-- `self._beta` -/
  beta : ℝ := 1
  /-- `self._db` -/
  db : ℝ := 1 / 5
  /-- `self._expansion_type` -/
  expansionType : String := "SD"
  /-- `self._sparseSb` -/
  sparseSb : Bool := true
  /-- `self._b_thresh` -/
  bThresh : ℝ := 1e-6
  /-- `self._x_thresh` -/
  xThresh : ℝ := 1e-10
  /-- `self._do_lanczos` -/
  doLanczos : Bool := false
  /-- `self._lanczos_gap` -/
  lanczosGap : ℤ := 2

/-- the attributes that change during the evolution -/
structure QiteState where
  /-- `self._Uqite` -/
  uqite : Circuit
  /-- `self._qc` -/
  qc : Computer
  /-- `self._Ekb` -/
  ekb : List ℝ
  /-- `self._total_phase` -/
  phase : ℂ
  /-- `self._n_classical_params` -/
  nParams : ℕ
  /-- `self._n_cnot` -/
  nCnot : ℤ
  /-- `self._n_pauli_trm_measures` -/
  nMeas : ℕ
  /-- `self._lanczos_vecs` -/
  lvecs : List (List ℂ)
  /-- `self._Hlanczos_vecs` -/
  hlvecs : List (List ℂ)

namespace QiteAlg

/-- the copy of a Pauli string and its number of Y gates, qite.py:239-244 -/
noncomputable def copyString (rho : Circuit) : Except Exc (Circuit × ℕ) :=
  rho.foldlM (fun s g => do
    let g' ← pyGate2 g.label g.target g.control
    pure (s.1.addGate g', if g.label = "Y" then s.2 + 1 else s.2)) ([], 0)

/-- the body of the loop over the terms of the transformed pool, qite.py:238-249 -/
noncomputable def filterStep (sig : QubitOpPool) (t : ℂ × Circuit) : Except Exc QubitOpPool := do
  let (c, ny) ← copyString t.2
  pure (if ny % 2 = 1 then QubitOpPool.addTerm sig 1 (QubitOperator.addTerm [] 1 c) else sig)

/-- `build_expansion_pool()`, qite.py:214-254: the value of `self._sig` -/
noncomputable def buildExpansionPool (N : SQOpPool.NextPerm) (o : DescSort) (so : SortOracle) (fuel : ℕ) (A : QiteAlg) : Except Exc QubitOpPool :=
  if A.expansionType = "complete_qubit" then
    if 6 < A.nqb then .error .valueError else QubitOpPool.fillPool [] "complete_qubit" A.nqb
  else if A.expansionType = "cqoy" then QubitOpPool.fillPool [] "cqoy" A.nqb
  else if A.expansionType ∈ ["SD", "GSD", "SDT", "SDTQ", "SDTQP", "SDTQPH"] then do
    let P ← SQOpPool.setOrbSpaces { terms := [] } A.ref
    let P ← SQOpPool.fillPool N o fuel P A.expansionType
    let T ← SQOpPool.getQubitOperator o so P "commuting_grp_lex" false false
    T.foldlM filterStep []
  else .error .valueError

/-- one iteration of the loop that fills `S` and `CI`, qite.py:268-274, 294-301: `ci` has the rows of `CI` filled so far -/
noncomputable def gramStep (A : QiteAlg) (q : Computer) (st : List (List ℂ) × NMat) (op : QubitOperator) : Except Exc (List (List ℂ) × NMat) := do
  let i := st.1.length
  let S := st.2.set i i 1
  let p ← ((Computer.init A.nqb).setCoeffVec q.coeff).applyOperator op
  let S ← (List.range i).foldlM (fun (S : NMat) j => do
    let v ← (st.1[j]?).elim (.error .indexError) pure
    let z ← vdot p.coeff v
    pure ((S.set i j z).set j i z)) S
  pure (st.1 ++ [p.coeff], S)

/-- `np.real(S)` of `build_S()`, qite.py:256-276, and of `build_sparse_S_b`, qite.py:288-303, for the operators it uses -/
noncomputable def gram (A : QiteAlg) (q : Computer) (ops : List QubitOperator) : Except Exc RMat := do
  let r ← ops.foldlM (A.gramStep q) ([], fun _ _ => 0)
  pure fun i j => (r.2 i j).re

/-- `build_b()`, qite.py:305-326.  `np.sqrt` of a negative number is `nan`, and for zero the prefactor has a `nan` part: then all elements
are `nan`. -/
noncomputable def buildB (A : QiteAlg) (sig : QubitOpPool) (q : Computer) (E : ℝ) : Except Exc (Option (List ℝ)) := do
  let h ← ((Computer.init A.nqb).setCoeffVec q.coeff).applyOperator A.ham
  let b ← sig.mapM fun t => do
    let p ← (h.setCoeffVec h.coeff).applyOperator t.2
    let v ← vdot q.coeff p.coeff
    pure (-Complex.I / ((Real.sqrt (1 - 2 * A.db * E) : ℝ) : ℂ) * t.1 * v).re
  pure (if 1 - 2 * A.db * E ≤ 0 then (if sig = [] then some [] else none) else some b)

/-- the loop of `build_sparse_S_b` that selects, qite.py:279-284: `(idx_sparse, b_sparse)`; comparisons with `nan` are false -/
noncomputable def sparseIdx (A : QiteAlg) (b : Option (List ℝ)) : List (ℕ × ℝ) :=
  match b with
  | none => []
  | some b => (b.zipIdx.filter fun p => open Classical in decide (A.bThresh < |p.1|)).map fun p => (p.2, p.1)

/-- the indices, right-hand side of the linear system and the number of measurements counted for the matrix, qite.py:328-335.
Without the selection `lstsq` refuses `nan`. -/
noncomputable def selected (A : QiteAlg) (b : Option (List ℝ)) : Except Exc (List (ℕ × ℝ)) :=
  if A.sparseSb then pure (A.sparseIdx b)
  else match b with
    | none => .error .valueError
    | some b => pure (b.zipIdx.map fun p => (p.2, p.1))

/-- the operator `A`, qite.py:343-355, and the number of terms added to it -/
noncomputable def buildA (A : QiteAlg) (sig : QubitOpPool) (idx : List ℕ) (x : List ℝ) : Except Exc QubitOperator :=
  idx.zipIdx.foldlM (fun (T : QubitOperator) p => do
    let xI ← (x[p.2]?).elim (.error .indexError) pure
    if open Classical in A.xThresh < |xI| then do
      let s ← (sig[p.1]?).elim (.error .indexError) pure
      let t ← (s.2[0]?).elim (.error .indexError) pure
      pure (T.addTerm (-Complex.I * A.db * xI) t.2)
    else pure T) []

/-- `do_qite_step()`, qite.py:328-373 -/
noncomputable def step (ls : LstsqOracle) (par : Option Schedule) (A : QiteAlg) (sig : QubitOpPool) (st : QiteState) : Except Exc QiteState := do
  let E ← (st.ekb.getLast?).elim (.error .indexError) pure
  let b ← A.buildB sig st.qc E
  let sel ← A.selected b
  let ops ← sel.mapM fun p => ((sig[p.1]?).elim (.error .indexError) pure : Except Exc (ℂ × QubitOperator))
  let S ← A.gram st.qc (ops.map Prod.snd)
  let x := ls sel.length S (sel.map Prod.snd)
  let T ← A.buildA sig (sel.map Prod.fst) x
  let (C, ph) ← trotterize T 1 A.trotterNumber
  let q ← st.qc.applyCircuit C
  let (v, q) ← q.directOpExpVal par A.ham
  pure { st with
    uqite := st.uqite.addCircuit C
    qc := q
    ekb := st.ekb ++ [v.re]
    phase := st.phase * ph
    nParams := st.nParams + T.length
    nCnot := st.nCnot + C.getNumCnots
    nMeas := st.nMeas + A.ham.length * sig.length + sel.length * (sel.length + 1) / 2 }

/-- the vectors kept for the Lanczos procedure, qite.py:385-390, 418-425 -/
noncomputable def keep (A : QiteAlg) (st : QiteState) : Except Exc QiteState := do
  let p ← ((Computer.init A.nqb).setCoeffVec st.qc.coeff).applyOperator A.ham
  pure { st with lvecs := st.lvecs ++ [st.qc.coeff], hlvecs := st.hlvecs ++ [p.coeff] }

/-- one iteration of the loop of `evolve`, qite.py:414-425 -/
noncomputable def loopStep (ls : LstsqOracle) (par : Option Schedule) (A : QiteAlg) (sig : QubitOpPool) (st : QiteState) (kb : ℕ) : Except Exc QiteState := do
  let st ← A.step ls par sig st
  if A.doLanczos then
    if A.lanczosGap = 0 then .error .zeroDivisionError
    else if (kb : ℤ) % A.lanczosGap = 0 then A.keep st else pure st
  else pure st

/-- `self._nbeta`, qite.py:138; `db = 0` divides by zero -/
noncomputable def nbeta (A : QiteAlg) : Except Exc ℤ := if A.db = 0 then .error .zeroDivisionError else .ok (pyTrunc (A.beta / A.db) + 1)

/-- `evolve()`, qite.py:375-437, after the attributes set by `run`; `E0` is `self._Ekb[0]` -/
noncomputable def evolve (ls : LstsqOracle) (par : Option Schedule) (A : QiteAlg) (sig : QubitOpPool) (E0 : ℝ) (nb : ℤ) : Except Exc QiteState := do
  let U := Circuit.addCircuit [] A.uprep
  let q ← (Computer.init A.nqb).applyCircuit U
  let st : QiteState := { uqite := U, qc := q, ekb := [E0], phase := 1, nParams := 0, nCnot := A.uprep.getNumCnots, nMeas := 0, lvecs := [], hlvecs := [] }
  let st ← if A.doLanczos then A.keep st else pure st
  (List.range' 1 (nb - 1).toNat).foldlM (A.loopStep ls par sig) st

/-- one iteration of the loop of `do_qlanczos`, qite.py:466-476: fill row and column `m`, and solve the problem of size `m + 1` -/
noncomputable def lanczosStep (eig : EigOracle) (st : QiteState) (s : (NMat × NMat) × List ℂ) (m : ℕ) : Except Exc ((NMat × NMat) × List ℂ) := do
  let M ← (List.range (m + 1)).foldlM (fun M n => fillPair st.lvecs st.hlvecs M m n) s.1
  let (ev, _) ← canonicalGeigSolve eig (m + 1) M.1 M.2 true
  if ev = [] then .error .indexError else pure (M, ev)

/-- `do_qlanczos()`, qite.py:444-491: the matrices `(s_mat, h_mat)` and `self._Egs_lanczos`.  `evals[0]` is read in every iteration. -/
noncomputable def qlanczos (eig : EigOracle) (st : QiteState) : Except Exc ((NMat × NMat) × ℂ) := do
  let r ← (List.range st.lvecs.length).foldlM (lanczosStep eig st) (zeroMats, [])
  let e ← (r.2[0]?).elim (.error .nameError) pure
  pure (r.1, e)

/-- `run(...)`, qite.py:125-174: the final state, `self._sig`, `self._Egs` and the result of the Lanczos procedure -/
noncomputable def run (N : SQOpPool.NextPerm) (o : DescSort) (so : SortOracle) (fuel : ℕ) (ls : LstsqOracle) (eig : EigOracle) (par : Option Schedule)
    (A : QiteAlg) : Except Exc (QiteState × QubitOpPool × ℝ × Option ((NMat × NMat) × ℂ)) := do
  let nb ← A.nbeta
  let q ← (Computer.init A.nqb).applyCircuit A.uprep
  let (v, _) ← q.directOpExpVal par A.ham
  let sig ← A.buildExpansionPool N o so fuel
  let st ← A.evolve ls par sig v.re nb
  let E ← (st.ekb.getLast?).elim (.error .indexError) pure
  let l ← if A.doLanczos then do
      let r ← qlanczos eig st
      pure (some r)
    else pure none
  pure (st, sig, E, l)

end QiteAlg
end QF
