import Verif.Model.PQE
import Verif.Model.Jacobi
import Mathlib.Data.Nat.Digits.Defs

/-!
Model of `ucc/spqe.py` (class `SPQE`), for `dt ≠ 0`, and of `abc/uccpqeabc.py: solve`.  Printing, the summary file, the measurement and CNOT counters and the moment
corrections are left out.  `scipy.optimize.minimize`, `numpy.linalg.lstsq` and `numpy.random.choice` are parameters; python floats are exact real numbers.
-/
namespace QF

open SQOperator (DescSort)
open QubitOperator (SortOracle)

namespace Spqe

/-- `[int(j) for j in bin(n)[2:]]`: the binary digits, most significant first; `bin(0)` is `"0b0"` -/
def binDigits (n : ℕ) : List ℕ := if n = 0 then [0] else (Nat.digits 2 n).reverse

/-- `[len(l) - i - 1 for i, x in enumerate(l) if x]`, spqe.py:187-188 -/
def setPositions (l : List ℕ) : List ℕ := (l.zipIdx.filter fun p => p.1 ≠ 0).map fun p => l.length - p.2 - 1

/-- spqe.py:152 -/
def maskAlpha : ℕ := 0x5555555555555555
/-- spqe.py:153 -/
def maskBeta : ℕ := maskAlpha <<< 1

/-- `sum([b << i for i, b in enumerate(self._ref)])`, spqe.py:150 -/
def refInt (ref : List ℕ) : ℕ := (ref.zipIdx.map fun p => p.1 <<< p.2).sum

/-- `sum(self._ref[s::2])`, spqe.py:154-155 -/
def spinCount (s : ℕ) (ref : List ℕ) : ℕ := ((ref.zipIdx.filter fun p => p.2 % 2 = s).map Prod.fst).sum

/-- `[int(i) for i, j in enumerate(reversed(excit)) if int(j) == 1 and self._ref[i] == v]`, spqe.py:198-207 -/
def excitPos (ref : List ℕ) (v : ℕ) (excit : List ℕ) : Except Exc (List ℕ) :=
  excit.reverse.zipIdx.foldlM (fun l p =>
    if p.1 = 1 then do
      let b ← pyIndex ref p.2
      pure (if b = v then l ++ [p.2] else l)
    else pure l) []

/-- `self._pool_obj` and `self._coeff_idx_to_pool_idx` -/
structure Pool where
  elems : List (ℂ × SQOperator) := []
  /-- pairs (coefficient index, pool index) in the order of insertion -/
  toPool : List (ℕ × ℕ) := []

/-- the body of the loop over `I`, spqe.py:178-215; `max` is `self._pool_type` -/
noncomputable def poolStep (o : DescSort) (ref orbIrreps : List ℕ) (irrep max : ℕ) (P : Pool) (I : ℕ) : Except Exc Pool :=
  let alphas := binDigits (I &&& maskAlpha)
  let betas := binDigits (I &&& maskBeta)
  if alphas.sum = spinCount 0 ref ∧ betas.sum = spinCount 1 ref then do
    let irr ← findIrrep orbIrreps (setPositions alphas ++ setPositions betas)
    if irr = irrep then
      let excit := binDigits (refInt ref ^^^ I)
      if excit ≠ [0] ∧ excit.count 1 / 2 ≤ max then do
        let occ ← excitPos ref 1 excit
        let vir ← excitPos ref 0 excit
        let op ← SQOperator.simplify o ((SQOperator.addTerm [] 1 vir occ).addTerm (-1) occ.reverse vir.reverse)
        pure { elems := P.elems ++ [(0, op)], toPool := P.toPool ++ [(I, P.elems.length)] }
      else pure P
    else pure P
  else pure P

/-- the treatment of `max_excit_rank`, spqe.py:157-171; `none` is `None`, values that are not integers are not modelled -/
def maxRank (ref : List ℕ) : Option ℤ → Except Exc ℕ
  | none => .ok (spinCount 0 ref + spinCount 1 ref)
  | some r => if r ≤ 0 then .error .typeError else .ok (min r.toNat (spinCount 0 ref + spinCount 1 ref))

/-- the pool, spqe.py:148-221, on `nqb` qubits -/
noncomputable def buildPool (o : DescSort) (nqb : ℕ) (ref orbIrreps : List ℕ) (irrep : ℕ) (rank : Option ℤ) : Except Exc Pool := do
  let max ← maxRank ref rank
  (List.range (1 <<< nqb)).foldlM (poolStep o ref orbIrreps irrep max) {}

/-- `d[k]` for a dictionary -/
def dictGet (d : List (ℕ × ℕ)) (k : ℕ) : Except Exc ℕ :=
  match d.lookup k with
  | some v => .ok v
  | none => .error .keyError

/-- `self._pool_idx_to_coeff_idx`, spqe.py:219-221 -/
def toCoeff (d : List (ℕ × ℕ)) : List (ℕ × ℕ) := d.map Prod.swap

/-- the sign of the projection, spqe.py:398-408: a component of `κ |refprep⟩` -/
noncomputable def signAdjust (o : DescSort) (A : PqeAlg) (d : List (ℕ × ℕ)) (m : ℕ) : Except Exc ℂ := do
  let e ← A.poolAt m
  let q ← (Computer.init A.nqb).applyCircuit A.refprep
  let (Q, _) ← e.2.jwTransform o A.qubitExc
  let q ← q.applyOperator Q
  let I ← dictGet (toCoeff d) m
  pyIndex q.coeff I

/-- `get_residual_vector(trial_amps)`, spqe.py:371-425; `jacobi` says whether `self._optimizer.lower() == "jacobi"`, `d` is
`self._coeff_idx_to_pool_idx` -/
noncomputable def residualVector (o : DescSort) (so : SortOracle) (jacobi : Bool) (A : PqeAlg) (d : List (ℕ × ℕ)) (ts : List ℝ) : Except Exc (List ℂ) :=
  if ts.length ≠ A.tops.length then .error .assertionError else do
    let U ← A.ansatzCircuit o so (some ts)
    let q ← (Computer.init A.nqb).applyCircuit A.uprep
    let q ← q.applyCircuit U
    let q ← q.applyOperator A.ham
    let q ← q.applyCircuit U.adjoint
    A.tops.mapM fun m => do
      let s ← (if jacobi then signAdjust o A d m else pure 1)
      let I ← dictGet (toCoeff d) m
      let c ← pyIndex q.coeff I
      let r := if jacobi then c * s else c
      if open Classical in r.im ≠ 0 then .error .valueError else pure r

/-- the arguments of `run`, spqe.py:55-66, and the attributes they are stored in -/
structure Opts where
  /-- `spqe_thresh` -/
  thresh : ℝ := 1e-2
  /-- `spqe_maxiter` -/
  maxiter : ℤ := 20
  /-- `dt` -/
  dt : ℝ := 0.001
  /-- `M_omega`; `none` is `"inf"` -/
  omega : Option ℤ := none
  /-- `opt_thresh` -/
  optThresh : ℝ := 1e-5
  /-- `opt_maxiter` -/
  optMaxiter : ℕ := 30
  /-- `use_cumulative_thresh` -/
  cumulative : Bool := true
  /-- `max_excit_rank` -/
  rank : Option ℤ := none
  /-- `optimizer.lower()` -/
  optimizer : String := "jacobi"
  /-- `self._diis_max_dim` -/
  diisMaxDim : ℕ := 8

/-- the library functions `run` calls -/
structure Ext where
  /-- `numpy.linalg.lstsq` -/
  lstsq : List (List ℝ) → List ℝ → List ℝ
  /-- `scipy.optimize.minimize(self.get_sum_residual_square, self._tamps, …).x`, any function of the object -/
  minimize : PqeAlg → Except Exc (List ℝ)
  /-- `np.random.choice(len(res_coeffs), M_omega, p=res_sq_tmp)` in macro-iteration `k` -/
  choice : ℕ → List ℂ → ℤ → Except Exc (List ℕ)
  /-- `self._orb_e` -/
  orbE : List ℝ

/-- the attributes that change -/
structure State where
  alg : PqeAlg
  /-- `self._coeff_idx_to_pool_idx` -/
  toPool : List (ℕ × ℕ)
  /-- `self._nbody_counts` -/
  nbody : List ℕ
  /-- `self._n_classical_params_lst` -/
  nParams : List ℕ := []
  /-- `self._results`; nothing is ever appended to it -/
  results : List ℝ := []
  /-- `self._energies` -/
  energies : List ℝ := []
  /-- `self._stop_macro` -/
  stop : Bool := false
  /-- `self._converged` -/
  converged : Bool := false
  /-- `self._curr_res_sq_norm` -/
  resNorm : ℝ := 0
  /-- `self._spqe_iter` -/
  iter : ℤ := 1

/-- `self._nbody_counts[len(self._pool_obj[pool_idx][1].terms()[0][1]) - 1] += 1`, spqe.py:517-518, 564-567, 585-588.  Index -1 is the last element. -/
def countOp (A : PqeAlg) (nbody : List ℕ) (m : ℕ) : Except Exc (List ℕ) := do
  let e ← A.poolAt m
  let t ← pyIndex e.2 0
  let i := if t.2.1.length = 0 then nbody.length - 1 else t.2.1.length - 1
  let c ← pyIndex nbody i
  pure (nbody.set i (c + 1))

/-- the coefficients of `U† e^{i dt H} U |Φ⟩`, spqe.py:433-442 -/
noncomputable def resCoeffs (o : DescSort) (so : SortOracle) (A : PqeAlg) (eiH : Circuit) : Except Exc (List ℂ) := do
  let U ← A.ansatzCircuit o so none
  let q ← (Computer.init A.nqb).applyCircuit A.uprep
  let q ← q.applyCircuit U
  let q ← q.applyCircuit eiH
  let q ← q.applyCircuit U.adjoint
  pure q.coeff

/-- python's order of pairs -/
def pairLe (a b : ℝ × ℕ) : Prop := a.1 < b.1 ∨ (a.1 = b.1 ∧ a.2 ≤ b.2)

noncomputable instance : DecidableRel pairLe := fun _ _ => Classical.dec _

/-- `res_sq` after `sort()`, spqe.py:523-528.  The set difference is iterated in an unspecified order; the sorted list does not depend on it. -/
noncomputable def resSq (A : PqeAlg) (d : List (ℕ × ℕ)) (coeffs : List ℂ) : Except Exc (List (ℝ × ℕ)) := do
  let used ← A.tops.mapM (dictGet (toCoeff d))
  let l ← ((d.map Prod.fst).filter fun I => I ∉ used).mapM fun I => do
    let c ← pyIndex coeffs I
    pure (((starRingEnd ℂ) c * c).re, I)
  pure (l.insertionSort pairLe)

/-- `conv_status()`, spqe.py:593-614 -/
noncomputable def convStatus (O : Opts) (st : State) : State :=
  open Classical in
  if |st.resNorm| < |O.thresh * O.thresh| then { st with converged := true, stop := true }
  else if st.iter > O.maxiter then { st with converged := false, stop := true }
  else if st.alg.tops.length = st.alg.pool.length then { st with converged := true, stop := true }
  else st

/-- the local variables of the cumulative selection: `res_sq_sum`, `temp_ops`, `self._nbody_counts` -/
structure Sel where
  sum : ℝ := 0
  ops : List ℕ := []
  nbody : List ℕ

/-- the body of the loop of the cumulative selection, spqe.py:553-567 -/
noncomputable def selStep (O : Opts) (A : PqeAlg) (d : List (ℕ × ℕ)) (s : Sel) (p : ℝ × ℕ) : Except Exc Sel :=
  let sum := s.sum + p.1 / (O.dt * O.dt)
  open Classical in
  if sum > O.thresh * O.thresh then do
    let m ← dictGet d p.2
    if m ∉ A.tops then do
      let nb ← countOp A s.nbody m
      pure { sum := sum, ops := s.ops ++ [m], nbody := nb }
    else pure { s with sum := sum }
  else pure { s with sum := sum }

/-- insertion of one operator with amplitude 0 at the front, spqe.py:515-516, 570-571, 583-584 -/
noncomputable def insertOp (A : PqeAlg) (m : ℕ) : PqeAlg := { A with tops := m :: A.tops, tamps := 0 :: A.tamps }

/-- the loop of the selection of a single operator, spqe.py:575-589 -/
noncomputable def selSingle (d : List (ℕ × ℕ)) (st : State) : List (ℝ × ℕ) → Except Exc State
  | [] => .ok st
  | p :: l => do
    let m ← dictGet d p.2
    if m ∉ st.alg.tops then do
      let nb ← countOp st.alg st.nbody m
      pure { st with alg := insertOp st.alg m, nbody := nb }
    else selSingle d st l

/-- `update_ansatz()` with `M_omega = "inf"`, spqe.py:427-442, 522-591 -/
noncomputable def updateInf (o : DescSort) (so : SortOracle) (par : Option Schedule) (O : Opts) (eiH : Circuit) (st : State) : Except Exc State := do
  let _ ← st.alg.energyFeval o so par st.alg.tamps
  let coeffs ← resCoeffs o so st.alg eiH
  let rs ← resSq st.alg st.toPool coeffs
  let st := convStatus O { st with resNorm := (rs.map Prod.fst).sum / (O.dt * O.dt) }
  if st.converged then pure st
  else do
    let st ← (if O.cumulative then do
        let s ← rs.foldlM (selStep O st.alg st.toPool) { nbody := st.nbody }
        pure { st with alg := s.ops.reverse.foldl insertOp st.alg, nbody := s.nbody }
      else selSingle st.toPool st rs.reverse)
    pure { st with nParams := st.nParams ++ [st.alg.tops.length] }

/-- one iteration of the loop over the measured determinants, spqe.py:508-518.  The test compares the coefficient index with the pool indices. -/
noncomputable def sampleStep (st : State) (mu : ℕ) : Except Exc State :=
  if mu ∉ st.alg.tops then do
    let m ← dictGet st.toPool mu
    let nb ← countOp st.alg st.nbody m
    pure { st with alg := insertOp st.alg m, nbody := nb }
  else pure st

/-- `update_ansatz()` with a number of measurements, spqe.py:427-520; `conv_status` is not called -/
noncomputable def updateSampled (o : DescSort) (so : SortOracle) (par : Option Schedule) (X : Ext) (O : Opts) (M : ℤ) (eiH : Circuit) (st : State) :
    Except Exc State := do
  let _ ← st.alg.energyFeval o so par st.alg.tamps
  let coeffs ← resCoeffs o so st.alg eiH
  let dets ← X.choice st.iter.toNat coeffs M
  if M = 0 then .error .zeroDivisionError else do
    let counts := (List.range coeffs.length).map fun mu => (dets.count mu, mu)
    let sorted := (counts.filter fun p => 0 < p.1).insertionSort (fun a b => a.1 < b.1 ∨ (a.1 = b.1 ∧ a.2 ≤ b.2))
    let sq := (counts.map fun p => ((p.1 : ℝ) / M, p.2)).insertionSort pairLe
    let st := { st with resNorm := (sq.dropLast.map Prod.fst).sum / (O.dt * O.dt) }
    if sorted.length = 1 then do
      let _ ← (st.energies.getLast?).elim (.error .indexError) pure
      let _ ← (st.results.getLast?).elim (.error .indexError) pure
      pure { st with converged := true }
    else do
      let st ← (sorted.dropLast.map Prod.snd).foldlM sampleStep { st with converged := false }
      pure { st with nParams := st.nParams ++ [st.alg.tops.length] }

/-- `update_ansatz()`, spqe.py:427-591 -/
noncomputable def updateAnsatz (o : DescSort) (so : SortOracle) (par : Option Schedule) (X : Ext) (O : Opts) (eiH : Circuit) (st : State) : Except Exc State :=
  match O.omega with
  | none => updateInf o so par O eiH st
  | some M => updateSampled o so par X O M eiH st

/-- what the Jacobi solver sees of the object, optimizer.py:40-97 -/
noncomputable def jacobiEnv (o : DescSort) (so : SortOracle) (par : Option Schedule) (X : Ext) (O : Opts) (A : PqeAlg) (d : List (ℕ × ℕ)) : JacobiEnv where
  energy := fun t => A.energyFeval o so par t
  residual := fun t => (residualVector o so true A d t).map fun r => r.map Complex.re
  precond := fun r => A.resOverMpdenom X.orbE r
  maxIter := O.optMaxiter
  thresh := O.optThresh
  diisMaxDim := O.diisMaxDim
  lstsq := X.lstsq

/-- `solve()`, uccpqeabc.py:108-123, with `jacobi_solver` and `scipy_solver`, optimizer.py:40-173: the new amplitudes and the energy appended to `self._energies` -/
noncomputable def solveFor (o : DescSort) (so : SortOracle) (par : Option Schedule) (X : Ext) (O : Opts) (A : PqeAlg) (d : List (ℕ × ℕ)) : Except Exc (List ℝ × ℝ) :=
  if O.optimizer = "jacobi" then do
    let (x, e, _) ← jacobiSolver (jacobiEnv o so par X O A d) A.tamps
    pure (x, e)
  else if O.optimizer ∈ ["nelder-mead", "powell", "bfgs", "l-bfgs-b", "cg", "slsqp"] then do
    let _ ← A.energyFeval o so par A.tamps
    let x ← X.minimize A
    let e ← A.energyFeval o so par x
    pure (x, e)
  else .error .notImplemented

/-- `self.solve()` -/
noncomputable def solve (o : DescSort) (so : SortOracle) (par : Option Schedule) (X : Ext) (O : Opts) (st : State) : Except Exc State := do
  let (x, e) ← solveFor o so par X O st.alg st.toPool
  pure { st with alg := { st.alg with tamps := x }, energies := st.energies ++ [e] }

/-- the loop of `run`, spqe.py:242-264 -/
noncomputable def loop (o : DescSort) (so : SortOracle) (par : Option Schedule) (X : Ext) (O : Opts) (eiH : Circuit) : ℕ → State → Except Exc State
  | 0, _ => .error .diverges
  | fuel + 1, st =>
    if st.stop then .ok st
    else do
      let st ← updateAnsatz o so par X O eiH st
      if st.converged then pure st
      else do
        let st ← solve o so par X O st
        loop o so par X O eiH fuel { st with iter := st.iter + 1 }

/-- `run(...)`, spqe.py:55-269, for an algorithm object created with an occupation list (otherwise `ValueError`, `occList`): the final state and `self._Egs` -/
noncomputable def run (o : DescSort) (so : SortOracle) (par : Option Schedule) (X : Ext) (O : Opts) (occList : Bool) (orbIrreps : List ℕ) (irrep : ℕ) (A : PqeAlg)
    (fuel : ℕ) : Except Exc (State × ℝ) :=
  if ¬occList then .error .valueError else do
    let (eiH, _) ← trotterize A.ham ((O.dt : ℂ) * Complex.I) A.trotterNumber
    let P ← buildPool o A.nqb A.ref orbIrreps irrep O.rank
    let A := { A with pool := P.elems, saSD := false, tops := [], tamps := [] }
    let st ← loop o so par X O eiH fuel { alg := A, toPool := P.toPool, nbody := (A.ref.filter (· ≠ 0)).map fun _ => 0 }
    let e ← (st.energies.getLast?).elim (.error .indexError) pure
    pure (st, e)

end Spqe
end QF
