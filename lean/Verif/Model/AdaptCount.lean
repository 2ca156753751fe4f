import Verif.Model.ADAPT

/-!
Model of the resource counters of `ucc/adaptvqe.py` (class `ADAPTVQE`): the lists printed at the end of `run`, `_n_pauli_trm_measures_lst`, `_n_cnot_lst`,
`_n_classical_params_lst`, and the functions `get_num_ham_measurements` and `get_num_commut_measurements`.  The functions of `Model/ADAPT.lean` are called for everything else.
-/
namespace QF

open SQOperator (DescSort)
open QubitOperator (SortOracle)

/-- what the result of an optimization says about its cost: `res.nfev` and `res.njev` of scipy (some methods do not set `njev`), or the number of iterations of the Jacobi solver -/
inductive SolveCost
  | scipy (nfev : ℕ) (njev : Option ℕ)
  | jacobi (k : ℕ)

/-- `res.x`, `res.fun` and the cost; the Jacobi solver: `_tamps`, `Ek` and `k`, optimizer.py:40-103 -/
abbrev CountSolver := UccAlg → Except Exc (List ℝ × ℝ × SolveCost)

/-- the attributes that `run` does not change -/
structure CountEnv where
  /-- `self._Nl` -/
  Nl : ℕ
  /-- `self._Nm` -/
  Nm : List ℕ
  /-- `self._use_analytic_grad` -/
  analytic : Bool

/-- the object with its counters, adaptvqe.py:113-131 -/
structure AdaptCount where
  base : AdaptState
  /-- `self._n_pauli_measures_k` -/
  cur : ℕ := 0
  /-- `self._results`: `nfev` and `njev` of each -/
  results : List (ℕ × Option ℕ) := []
  /-- `self._n_pauli_trm_measures_lst` -/
  meas : List ℕ := []
  /-- `self._n_cnot_lst` -/
  cnots : List ℤ := []
  /-- `self._n_ham_measurements` -/
  nHam : ℕ := 0
  /-- `self._n_commut_measurements` -/
  nCommut : ℕ := 0

namespace Adapt

/-- `update_ansatz()`, adaptvqe.py:385, 398-402, 380-458.  The gradients are computed once by the code; here the function is called again for the rest, with the same value. -/
noncomputable def updateAnsatzC (o : DescSort) (so : SortOracle) (E : CountEnv) (O : AdaptOpts) (c : AdaptCount) : Except Exc AdaptCount := do
  let grads ← c.base.ucc.measureGradient3 o so
  let cur ← grads.zipIdx.foldlM (fun n p => do let w ← pyIndex E.Nm p.2; pure (n + E.Nl * w)) 0
  let st ← updateAnsatz o so O c.base
  pure { c with base := st, cur := cur }

/-- the counters after a call of scipy, adaptvqe.py:345-350, 364 -/
def scipyCost (E : CountEnv) (tops : List ℕ) (cur nfev : ℕ) (njev : Option ℕ) : Except Exc ℕ :=
  if E.analytic then tops.foldlM (fun n m => do
      let w ← pyIndex E.Nm m
      let j ← njev.elim (.error .attributeError) pure
      pure (n + w * E.Nl * j)) (cur + E.Nl * nfev)
  else pure (cur + E.Nl * nfev)

/-- `solve()`, adaptvqe.py:314-377, and the end of `jacobi_solver()`, optimizer.py:100-116 -/
noncomputable def solveC (o : DescSort) (so : SortOracle) (par : Option Schedule) (S : CountSolver) (E : CountEnv) (c : AdaptCount) : Except Exc AdaptCount := do
  let _ ← c.base.ucc.energyFeval o so par c.base.ucc.tamps
  let (x, e, r) ← S c.base.ucc
  let st := { c.base with ucc := { c.base.ucc with tamps := x }, energies := c.base.energies ++ [e] }
  match r with
  | .scipy nfev njev => do
    let cur ← scipyCost E c.base.ucc.tops c.cur nfev njev
    let U ← st.ucc.buildUvqc o so none
    pure { c with base := st, cur := cur, results := c.results ++ [(nfev, njev)], meas := c.meas ++ [cur], cnots := c.cnots ++ [Circuit.getNumCnots U] }
  | .jacobi k => do
    let cur := c.cur + E.Nl * k * (2 * x.length + 1)
    let U ← st.ucc.buildUvqc o so none
    pure { c with base := st, cur := cur, meas := c.meas ++ [cur], cnots := c.cnots ++ [Circuit.getNumCnots U] }

/-- the loop of `run`, adaptvqe.py:162-202 -/
noncomputable def loopC (o : DescSort) (so : SortOracle) (par : Option Schedule) (S : CountSolver) (E : CountEnv) (O : AdaptOpts) : ℕ → AdaptCount → Except Exc AdaptCount
  | k, c => do
    let c ← updateAnsatzC o so E O c
    if c.base.converged then pure c
    else do
      let c ← solveC o so par S E c
      match k with
      | 0 => do
        let e ← (c.base.energies.getLast?).elim (.error .indexError) pure
        pure { c with base := { c.base with finalEnergy := some e } }
      | k + 1 => loopC o so par S E O k c

/-- `get_num_ham_measurements()`, adaptvqe.py:470-473: the value and the object -/
def getNumHam (c : AdaptCount) : ℕ × AdaptCount :=
  let n := c.results.foldl (fun n r => n + r.1) c.nHam
  (n, { c with nHam := n })

/-- `get_num_commut_measurements()`, adaptvqe.py:475-482 -/
def getNumCommut (E : CountEnv) (c : AdaptCount) : Except Exc (ℕ × AdaptCount) := do
  let n := c.nCommut + c.base.ucc.tamps.length * c.base.ucc.pool.length
  let n ← (if E.analytic then c.results.zipIdx.foldlM (fun n p => do
      let j ← p.1.2.elim (.error .attributeError) pure
      pure (n + j * (p.2 + 1))) n
    else pure n)
  pure (n, { c with nCommut := n })

/-- a line of the table printed at the end, adaptvqe.py:205-216: `k`, the energy, the numbers of parameters, of CNOT gates and of measurements so far -/
structure TableRow where
  k : ℕ
  energy : ℝ
  params : ℕ
  cnots : ℤ
  meas : ℕ

/-- the table, adaptvqe.py:213-216 -/
def table (c : AdaptCount) : Except Exc (List TableRow) :=
  c.base.energies.zipIdx.mapM fun p => do
    let a ← pyIndex c.base.nParams p.2
    let b ← pyIndex c.cnots p.2
    pure ⟨p.2, p.1, a, b, (c.meas.take (p.2 + 1)).sum⟩

/-- what `run` leaves: the object, `self._Egs`, the table, `self._n_cnot`, `self._n_classical_params`, `self._n_pauli_trm_measures` and the two numbers printed in the banner -/
structure AdaptReport where
  obj : AdaptCount
  egs : ℝ
  rows : List TableRow
  nCnot : ℤ
  nParams : ℕ
  nMeas : ℕ
  bannerHam : ℕ
  bannerCommut : ℕ

/-- `run(...)`, adaptvqe.py:81-249, after the pool has been filled, without moment corrections -/
noncomputable def runC (o : DescSort) (so : SortOracle) (par : Option Schedule) (S : CountSolver) (E : CountEnv) (O : AdaptOpts) (A : UccAlg) : Except Exc AdaptReport := do
  let A := { A with tops := [], tamps := [] }
  let _ ← A.energyFeval o so par []
  let c ← loopC o so par S E O (O.maxiter.toNat - 1)
    { base := { ucc := A, energies := [], gradNorms := [], converged := false, finalEnergy := none, nParams := [] } }
  let e ← c.base.finalEnergy.elim (.error .attributeError) pure
  let rows ← table c
  let b ← c.cnots.getLast?.elim (.error .indexError) pure
  let (h, c) := getNumHam c
  let (m, c) ← getNumCommut E c
  pure { obj := c, egs := e, rows := rows, nCnot := b, nParams := c.base.ucc.tamps.length, nMeas := c.meas.sum, bannerHam := h, bannerCommut := m }

end Adapt
end QF
