import Verif.Model.Jacobi

/-!
Model of the counters of `jacobi_solver` (maths/optimizer.py) and of `UCCNVQE` and `UCCNPQE` (ucc/uccnvqe.py, ucc/uccnpqe.py): the solver of `Model/Jacobi.lean` with a
count of the calls it makes.
-/
namespace QF

/-- the calls made so far -/
structure Calls where
  /-- calls of `energy_feval` (not counted by the code) -/
  energies : ℕ := 0
  /-- `self._res_vec_evals`, uccvqeabc.py:295, uccnpqe.py:289 -/
  vecs : ℕ := 0
  /-- `self._res_m_evals`, uccvqeabc.py:296, uccnpqe.py:290 -/
  elems : ℕ := 0

/-- one iteration, optimizer.py:64-85; the residual is evaluated for `len(self._tamps)` amplitudes -/
noncomputable def jacobiStepC (J : JacobiEnv) (s : JacobiState) (c : Calls) : Except Exc (JacobiState × Calls) := do
  let r ← J.residual s.tamps
  let c := { c with vecs := c.vecs + 1, elems := c.elems + s.tamps.length }
  let u ← J.precond r
  let t ← npAdd s.tamps u
  let e ← npSub t s.tamps
  let td := s.tDiis ++ [t]
  let ed := s.eDiis ++ [e]
  let (t, td, ed) ← (if J.diisMaxDim ≥ 2 then diis J.lstsq J.diisMaxDim td ed else pure (t, td, ed))
  let E ← J.energy t
  let c := { c with energies := c.energies + 1 }
  pure ({ tamps := t, tDiis := td, eDiis := ed, energy := E, norm := npNorm r }, c)

/-- the loop, optimizer.py:63-98 -/
noncomputable def jacobiLoopC (J : JacobiEnv) : ℕ → ℕ → JacobiState → Calls → Except Exc (JacobiState × ℕ × Calls)
  | 0, k, s, c => .ok (s, k, c)
  | fuel + 1, k, s, c => do
    let (s', c) ← jacobiStepC J s c
    if open Classical in s'.norm < J.thresh then .ok (s', k + 1, c) else jacobiLoopC J fuel (k + 1) s' c

/-- what the solver leaves: amplitudes, energy, iterations, calls and what it adds to `self._n_pauli_trm_measures` (and to `self._n_pauli_measures_k`) -/
structure JacobiReport where
  tamps : List ℝ
  energy : ℝ
  iters : ℕ
  calls : Calls
  meas : ℕ

/-- `jacobi_solver()`, optimizer.py:40-116, of an object whose Hamiltonian has `Nl` terms -/
noncomputable def jacobiSolverC (Nl : ℕ) (J : JacobiEnv) (tamps : List ℝ) : Except Exc JacobiReport := do
  let E ← J.energy tamps
  let c : Calls := { energies := 1 }
  if J.maxIter = 0 then .error .nameError else do
    let (s, k, c) ← jacobiLoopC J J.maxIter 0 { tamps := tamps, tDiis := [tamps], eDiis := [], energy := E, norm := 0 } c
    pure { tamps := s.tamps, energy := s.energy, iters := k, calls := c, meas := 2 * Nl * k * s.tamps.length + Nl * k }

/-- `self._n_nonzero_params`, uccnvqe.py:110-113, uccnpqe.py:118-121 -/
noncomputable def nonzeroParams (tamps : List ℝ) : ℕ := (tamps.filter fun t => open Classical in decide (1e-12 < |t|)).length

/-- `self._n_pauli_trm_measures` of `UCCNVQE` after scipy, uccnvqe.py:236-240, 254 -/
noncomputable def uccnvqeMeasures (Nl : ℕ) (analytic : Bool) (x : List ℝ) (nfev njev : ℕ) : ℕ :=
  if analytic then x.foldl (fun n t => open Classical in if 1e-12 < |t| then n + 2 * Nl * njev else n) 0 + Nl * nfev else Nl * nfev

/-- `self._n_pauli_trm_measures` of `UCCNPQE` after the run, uccnpqe.py:123-126 -/
noncomputable def uccnpqeMeasures (Nl : ℕ) (tamps : List ℝ) (vecs : ℕ) : ℕ := 2 * Nl * vecs * nonzeroParams tamps + Nl * vecs

end QF
