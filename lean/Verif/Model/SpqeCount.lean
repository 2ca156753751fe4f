import Verif.Model.SPQE
import Verif.Model.JacobiCount

/-!
Model of the resource counters of `SPQE` (ucc/spqe.py, maths/optimizer.py), its summary file and the table it prints: the macro-iterations of `Model/SPQE.lean` with the
counters that `get_residual_vector`, `jacobi_solver` and `scipy_solver` keep.  The moment corrections are left out.
-/
namespace QF
namespace Spqe

open SQOperator (DescSort)
open QubitOperator (SortOracle)

/-- a line of the table, spqe.py:289-292, and of the summary file, spqe.py:258-261 -/
structure Row where
  k : ℤ
  energy : ℝ
  params : ℕ
  cnots : ℤ
  meas : ℕ

/-- the object with its counters -/
structure Count where
  base : State
  /-- `self._res_vec_evals` -/
  vecs : ℕ := 0
  /-- `self._res_m_evals` -/
  elems : ℕ := 0
  /-- `self._n_pauli_measures_k` -/
  measK : ℕ := 0
  /-- `self._n_pauli_trm_measures_lst` -/
  meas : List ℕ := []
  /-- `self._n_cnot_lst` -/
  cnots : List ℤ := []
  /-- the lines written to `summary.dat` -/
  file : List Row := []

/-- what `scipy.optimize.minimize` gives: the amplitudes, how often it called the callback (`self._k_counter`, uccpqeabc.py:66) and how often it evaluated the
objective -/
abbrev ScipyCount := PqeAlg → Except Exc (List ℝ × ℕ × ℕ)

/-- the library functions without the counts -/
noncomputable def eraseC (X : Ext) (S : ScipyCount) : Ext := { X with minimize := fun A => (S A).map Prod.fst }

/-- `self.solve()`, uccpqeabc.py:108-123, with the counters of `jacobi_solver`, optimizer.py:102-116, `scipy_solver`, optimizer.py:156-172, and
`get_residual_vector`, spqe.py:421-423.  Every evaluation of the objective of scipy is one residual vector of `len(self._tops)` elements. -/
noncomputable def solveC (o : DescSort) (so : SortOracle) (par : Option Schedule) (X : Ext) (S : ScipyCount) (Nl : ℕ) (O : Opts) (c : Count) : Except Exc Count := do
  let A := c.base.alg
  let (x, e, k, nv, ne) ← (
    if O.optimizer = "jacobi" then do
      let R ← jacobiSolverC Nl (jacobiEnv o so par X O A c.base.toPool) A.tamps
      pure (R.tamps, R.energy, R.iters, R.calls.vecs, R.calls.elems)
    else if O.optimizer ∈ ["nelder-mead", "powell", "bfgs", "l-bfgs-b", "cg", "slsqp"] then do
      let _ ← A.energyFeval o so par A.tamps
      let (x, k, nf) ← S A
      let e ← A.energyFeval o so par x
      pure (x, e, k, nf, nf * A.tops.length)
    else .error .notImplemented)
  let A := { A with tamps := x }
  let measK := c.measK + Nl * k * (2 * x.length + 1)
  let U ← A.buildUvqc o so none
  pure { c with base := { c.base with alg := A, energies := c.base.energies ++ [e] }, vecs := c.vecs + nv, elems := c.elems + ne, measK := measK, meas := c.meas ++ [measK], cnots := c.cnots ++ [U.getNumCnots] }

/-- the last element of a list, `l[-1]` -/
def pyLast {α : Type} (l : List α) : Except Exc α := (l.getLast?).elim (.error .indexError) pure

/-- the loop of `run`, spqe.py:242-264, with the lines of the summary file -/
noncomputable def loopC (o : DescSort) (so : SortOracle) (par : Option Schedule) (X : Ext) (S : ScipyCount) (Nl : ℕ) (O : Opts) (eiH : Circuit) : ℕ → Count → Except Exc Count
  | 0, _ => .error .diverges
  | fuel + 1, c =>
    if c.base.stop then .ok c
    else do
      let st ← updateAnsatz o so par (eraseC X S) O eiH c.base
      let c : Count := { c with base := st, measK := 0 }
      if st.converged then pure c
      else do
        let c ← solveC o so par X S Nl O c
        let e ← pyLast c.base.energies
        let n ← pyLast c.cnots
        let c : Count := { c with file := c.file ++ [{ k := c.base.iter, energy := e, params := c.base.alg.tamps.length, cnots := n, meas := c.meas.sum }] }
        let st : State := { c.base with iter := c.base.iter + 1 }
        loopC o so par X S Nl O eiH fuel { c with base := st }

/-- the table, spqe.py:289-292 -/
noncomputable def table (c : Count) : Except Exc (List Row) :=
  c.base.energies.zipIdx.mapM fun p => do
    let n ← pyIndex c.base.nParams p.2
    let x ← pyIndex c.cnots p.2
    pure ({ k := p.2, energy := p.1, params := n, cnots := x, meas := (c.meas.take (p.2 + 1)).sum } : Row)

/-- what the run leaves: the object, `self._Egs`, the table and the numbers of the summary, spqe.py:309-311 -/
structure Report where
  obj : Count
  egs : ℝ
  rows : List Row
  nParams : ℕ
  nCnot : ℤ
  nMeas : ℕ

/-- `run(...)`, spqe.py:55-314, for an algorithm object created with an occupation list; `Nl` is `self._Nl` -/
noncomputable def runC (o : DescSort) (so : SortOracle) (par : Option Schedule) (X : Ext) (S : ScipyCount) (Nl : ℕ) (O : Opts) (orbIrreps : List ℕ) (irrep : ℕ) (A : PqeAlg)
    (fuel : ℕ) : Except Exc Report := do
  let (eiH, _) ← trotterize A.ham ((O.dt : ℂ) * Complex.I) A.trotterNumber
  let P ← buildPool o A.nqb A.ref orbIrreps irrep O.rank
  let A := { A with pool := P.elems, saSD := false, tops := [], tamps := [] }
  let c ← loopC o so par X S Nl O eiH fuel { base := { alg := A, toPool := P.toPool, nbody := (A.ref.filter (· ≠ 0)).map fun _ => 0 } }
  let e ← pyLast c.base.energies
  let rows ← table c
  let n ← pyLast c.cnots
  pure { obj := c, egs := e, rows := rows, nParams := c.base.alg.tamps.length, nCnot := n, nMeas := c.meas.sum }

end Spqe
end QF
