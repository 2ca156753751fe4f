import Verif.Model.Base
import Verif.Model.Compact
import Mathlib.Analysis.SpecialFunctions.Pow.Real

/-!
Model of maths/optimizer.py: `jacobi_solver` and `diis`.  The energy, the residual (or gradient), the preconditioner
`get_res_over_mpdenom` and `numpy.linalg.lstsq` are parameters.  Printing and the cost counters are left out.
-/
namespace QF

/-- what `jacobi_solver` reads from the algorithm object -/
structure JacobiEnv where
  /-- `energy_feval` -/
  energy : List ℝ → Except Exc ℝ
  /-- `get_residual_vector` or `gradient_ary_feval` -/
  residual : List ℝ → Except Exc (List ℝ)
  /-- `get_res_over_mpdenom` -/
  precond : List ℝ → Except Exc (List ℝ)
  /-- `_opt_maxiter` -/
  maxIter : ℕ
  /-- `_opt_thresh` -/
  thresh : ℝ
  /-- `_diis_max_dim` -/
  diisMaxDim : ℕ
  /-- `numpy.linalg.lstsq(B, b)[0]` -/
  lstsq : List (List ℝ) → List ℝ → List ℝ

/-- `np.add` of two vectors of the same length; numpy raises `ValueError` for different lengths (lengths 1 are broadcast; that case
is not modelled) -/
def npAdd (a b : List ℝ) : Except Exc (List ℝ) := if a.length = b.length then .ok (List.zipWith (· + ·) a b) else .error .valueError

/-- `np.subtract`, same remark -/
def npSub (a b : List ℝ) : Except Exc (List ℝ) := if a.length = b.length then .ok (List.zipWith (· - ·) a b) else .error .valueError

/-- `np.dot` -/
def npDot (a b : List ℝ) : Except Exc ℝ := if a.length = b.length then .ok (List.zipWith (· * ·) a b).sum else .error .valueError

/-- `np.linalg.norm` -/
noncomputable def npNorm (a : List ℝ) : ℝ := Real.sqrt ((a.map fun x => x ^ 2).sum)

/-- the rows of the error overlaps, optimizer.py:25-26 -/
def diisOverlaps (es : List (List ℝ)) : Except Exc (List (List ℝ)) := es.mapM fun a => es.mapM fun b => npDot a b

/-- the largest modulus of the entries -/
noncomputable def maxAbs (M : List (List ℝ)) : ℝ := (M.flatten.map abs).foldl max 0

/-- `B`, optimizer.py:20-28: the overlaps divided by their largest modulus, bordered by -1, with a zero corner -/
noncomputable def diisMatrix (M : List (List ℝ)) : List (List ℝ) :=
  (M.map fun r => (r.map fun x => x / maxAbs M) ++ [-1]) ++ [List.replicate M.length (-1) ++ [0]]

/-- `diis(diis_max_dim, t_diis, e_diis)`, optimizer.py:6-37; returns the new amplitudes and the shortened lists.  If all error vectors
vanish, the division gives `nan` and `lstsq` raises `LinAlgError` (a `ValueError`). -/
noncomputable def diis (lstsq : List (List ℝ) → List ℝ → List ℝ) (maxDim : ℕ) (ts es : List (List ℝ)) :
    Except Exc (List ℝ × List (List ℝ) × List (List ℝ)) := do
  let (ts, es) := if ts.length > maxDim then (ts.drop 1, es.drop 1) else (ts, es)
  let dim := ts.length - 1
  let M ← diisOverlaps es
  if open Classical in maxAbs M = 0 then .error .valueError else do
    let x := (lstsq (diisMatrix M) (List.replicate dim 0 ++ [-1])).dropLast
    let t0 ← pyIndex ts 0
    let t ← (List.range dim).foldlM (fun t l => do
      let c ← pyIndex x l
      let tl ← pyIndex ts (l + 1)
      npAdd t (tl.map (c * ·))) (List.replicate t0.length 0)
    pure (t, ts, es)

/-- the state of the iteration: amplitudes, history, energy, number of completed iterations -/
structure JacobiState where
  tamps : List ℝ
  tDiis : List (List ℝ)
  eDiis : List (List ℝ)
  energy : ℝ
  /-- the norm of the residual evaluated in the last iteration, `_res_vec_norm` or `_curr_grad_norm` -/
  norm : ℝ

/-- one iteration, optimizer.py:64-85 -/
noncomputable def jacobiStep (J : JacobiEnv) (s : JacobiState) : Except Exc JacobiState := do
  let r ← J.residual s.tamps
  let u ← J.precond r
  let t ← npAdd s.tamps u
  let e ← npSub t s.tamps
  let td := s.tDiis ++ [t]
  let ed := s.eDiis ++ [e]
  let (t, td, ed) ← (if J.diisMaxDim ≥ 2 then diis J.lstsq J.diisMaxDim td ed else pure (t, td, ed))
  let E ← J.energy t
  pure { tamps := t, tDiis := td, eDiis := ed, energy := E, norm := npNorm r }

/-- the loop `for k in range(1, maxiter + 1)`, optimizer.py:63-98, with `fuel` iterations left and `k` done; returns the state at the
exit and the number of iterations -/
noncomputable def jacobiLoop (J : JacobiEnv) : ℕ → ℕ → JacobiState → Except Exc (JacobiState × ℕ)
  | 0, k, s => .ok (s, k)
  | fuel + 1, k, s => do
    let s' ← jacobiStep J s
    if open Classical in s'.norm < J.thresh then .ok (s', k + 1) else jacobiLoop J fuel (k + 1) s'

/-- `jacobi_solver()`, optimizer.py:40-116: returns the final `_tamps`, `_Egs` and the number of iterations.  With
`_opt_maxiter = 0` the names `Ek` and `k` are unbound. -/
noncomputable def jacobiSolver (J : JacobiEnv) (tamps : List ℝ) : Except Exc (List ℝ × ℝ × ℕ) := do
  let E ← J.energy tamps
  if J.maxIter = 0 then .error .nameError else do
    let (s, k) ← jacobiLoop J J.maxIter 0 { tamps := tamps, tDiis := [tamps], eDiis := [], energy := E, norm := 0 }
    pure (s.tamps, s.energy, k)

end QF
