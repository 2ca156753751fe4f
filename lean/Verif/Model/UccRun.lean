import Verif.Model.Algorithm
import Verif.Model.ADAPT
import Verif.Model.PQE
import Verif.Model.Jacobi
import Verif.Model.Moments
import Verif.Model.System

/-!
Model of `run` of `ucc/uccnvqe.py` (class `UCCNVQE`) and `ucc/uccnpqe.py` (class `UCCNPQE`), with `solve` of abc/uccpqeabc.py.  Printing, the summary
file, the measurement counters, the noise option and the moment corrections (`Model/Moments.lean`) are left out.
-/
namespace QF

open SQOperator (DescSort)
open QubitOperator (SortOracle)

/-- the arguments of `run` that are used, uccnvqe.py:42-52, uccnpqe.py:52-59, and `diis_max_dim` of the constructor -/
structure UccRunOpts where
  optimizer : String
  optMaxiter : ℕ
  optThresh : ℝ
  diisMaxDim : ℕ

/-- the external functions -/
structure UccRunExt where
  /-- `scipy.optimize.minimize(self.energy_feval, ...)`: `res.x` and `res.fun` -/
  minimize : UccAlg → Except Exc (List ℝ × ℝ)
  /-- `scipy.optimize.minimize(self.get_sum_residual_square, ...)`: `res.x` -/
  minimizeRes : PqeAlg → List (ℕ × ℂ) → Except Exc (List ℝ)
  /-- `numpy.linalg.lstsq(B, b)[0]` -/
  lstsq : List (List ℝ) → List ℝ → List ℝ

/-- `fill_pool()` and `initialize_ansatz()`, algorithm.py:290-307, uccnvqe.py:272-277, uccnpqe.py:294-300 -/
noncomputable def startAnsatz (N : SQOpPool.NextPerm) (o : DescSort) (fuel : ℕ) (A : AlgObj) (a : AlgArgs) (t : PoolArg) : Except Exc UccAlg := do
  let P ← A.fillPool N o fuel t
  let (_, P) ← poolNm o P
  pure (A.ucc a t P (List.range P.terms.length) (List.replicate P.terms.length 0))

/-- the object with the attributes of the PQE functions -/
noncomputable def AlgObj.pqe (A : AlgObj) (U : UccAlg) : PqeAlg := { U with ref := A.ref, refprep := A.refprep }

/-- `self._orb_e`.  Simplification: the real parts; for a Hermitian Hamiltonian the energies are real. -/
noncomputable def AlgObj.orbE (par : Option Schedule) (A : AlgObj) (U : UccAlg) (hf : Option (List ℝ)) : Except Exc (List ℝ) := do
  let l ← Moments.buildOrbEnergies par (A.pqe U) hf
  pure (l.map Complex.re)

/-- what `jacobi_solver` sees of a `UCCNVQE` object, optimizer.py:40-116 -/
noncomputable def vqeJacobiEnv (o : DescSort) (so : SortOracle) (par : Option Schedule) (X : UccRunExt) (O : UccRunOpts) (A : AlgObj) (orbE : List ℝ) (U : UccAlg) : JacobiEnv where
  energy := fun t => U.energyFeval o so par t
  residual := fun t => U.measureGradient o so (some t)
  precond := fun r => (A.pqe U).resOverMpdenom orbE r
  maxIter := O.optMaxiter
  thresh := O.optThresh
  diisMaxDim := O.diisMaxDim
  lstsq := X.lstsq

/-- `solve()`, uccnvqe.py:189-194, and `scipy_solve()`, uccnvqe.py:196-270: the amplitudes and `self._Egs` -/
noncomputable def vqeSolve (o : DescSort) (so : SortOracle) (par : Option Schedule) (X : UccRunExt) (O : UccRunOpts) (A : AlgObj) (hf : Option (List ℝ)) (U : UccAlg) :
    Except Exc (List ℝ × ℝ) :=
  if pyLower O.optimizer = "jacobi" then do
    let orbE ← A.orbE par U hf
    let (x, e, _) ← jacobiSolver (vqeJacobiEnv o so par X O A orbE U) U.tamps
    pure (x, e)
  else do
    let _ ← U.energyFeval o so par U.tamps
    X.minimize U

/-- `UCCNVQE.run`, uccnvqe.py:42-119: the final ansatz, `self._Egs` and `self._n_cnot` -/
noncomputable def uccnvqeRun (N : SQOpPool.NextPerm) (o : DescSort) (so : SortOracle) (par : Option Schedule) (fuel : ℕ) (X : UccRunExt) (O : UccRunOpts) (A : AlgObj)
    (a : AlgArgs) (t : PoolArg) (hf : Option (List ℝ)) : Except Exc (UccAlg × ℝ × ℤ) := do
  let U ← startAnsatz N o fuel A a t
  let (x, e) ← vqeSolve o so par X O A hf U
  let U := { U with tamps := x }
  let C ← U.buildUvqc o so none
  pure (U, e, C.getNumCnots)

/-- what `jacobi_solver` sees of a `UCCNPQE` object, optimizer.py:40-116 -/
noncomputable def pqeJacobiEnv (o : DescSort) (so : SortOracle) (par : Option Schedule) (X : UccRunExt) (O : UccRunOpts) (orbE : List ℝ) (U : PqeAlg) (dets : List (ℕ × ℂ)) :
    JacobiEnv where
  energy := fun t => U.energyFeval o so par t
  residual := fun t => (U.residualVector o so dets t).map fun r => r.map Complex.re
  precond := fun r => U.resOverMpdenom orbE r
  maxIter := O.optMaxiter
  thresh := O.optThresh
  diisMaxDim := O.diisMaxDim
  lstsq := X.lstsq

/-- `solve()`, uccpqeabc.py:108-123, with `scipy_solver`, optimizer.py:119-172 -/
noncomputable def pqeSolve (o : DescSort) (so : SortOracle) (par : Option Schedule) (X : UccRunExt) (O : UccRunOpts) (orbE : List ℝ) (U : PqeAlg) (dets : List (ℕ × ℂ)) :
    Except Exc (List ℝ × ℝ) :=
  if pyLower O.optimizer = "jacobi" then do
    let (x, e, _) ← jacobiSolver (pqeJacobiEnv o so par X O orbE U dets) U.tamps
    pure (x, e)
  else if pyLower O.optimizer ∈ ["nelder-mead", "powell", "bfgs", "l-bfgs-b", "cg", "slsqp"] then do
    let _ ← U.energyFeval o so par U.tamps
    let x ← X.minimizeRes U dets
    let e ← U.energyFeval o so par x
    pure (x, e)
  else .error .notImplemented

/-- `UCCNPQE.run`, uccnpqe.py:52-129: the final ansatz, `self._excited_dets`, `self._Egs` and `self._n_cnot` -/
noncomputable def uccnpqeRun (N : SQOpPool.NextPerm) (o : DescSort) (so : SortOracle) (par : Option Schedule) (fuel : ℕ) (X : UccRunExt) (O : UccRunOpts) (A : AlgObj)
    (a : AlgArgs) (t : PoolArg) (hf : Option (List ℝ)) : Except Exc (PqeAlg × List (ℕ × ℂ) × ℝ × ℤ) :=
  if a.statePrep ≠ "occupation_list" then .error .valueError
  else do
    let U ← startAnsatz N o fuel A a t
    let U := A.pqe U
    let dets ← U.fillExcitedDets o
    let orbE ← A.orbE par U.toUccAlg hf
    let (x, e) ← pqeSolve o so par X O orbE U dets
    let U := { U with tamps := x }
    let C ← U.buildUvqc o so none
    pure (U, dets, e, C.getNumCnots)

end QF
