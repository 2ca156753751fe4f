import Verif.Model.UCC

/-!
Model of `ucc/adaptvqe.py` (class `ADAPTVQE`).  Printing, the summary file, the measurement and CNOT counters and the moment corrections are left
out.  `scipy.optimize.minimize` (or the Jacobi solver) is a parameter; python floats are exact real numbers.
-/
namespace QF

open SQOperator (DescSort)
open QubitOperator (SortOracle)

/-- what `solve()` returns for the present object: `res.x` and `res.fun`, adaptvqe.py:314-376.  Any function of the object. -/
abbrev Solver := UccAlg → Except Exc (List ℝ × ℝ)

/-- the arguments of `run`, adaptvqe.py:81-92 -/
structure AdaptOpts where
  /-- `self._avqe_thresh` -/
  thresh : ℝ := 1e-2
  /-- `self._adapt_maxiter` -/
  maxiter : ℤ := 20
  /-- `self._use_cumulative_thresh` -/
  cumulative : Bool := false
  /-- `self._add_equiv_ops` -/
  addEquiv : Bool := false

/-- the attributes that change, adaptvqe.py:113-118; `self._tops` and `self._tamps` are in `ucc` -/
structure AdaptState where
  ucc : UccAlg
  /-- `self._energies` -/
  energies : List ℝ
  /-- `self._grad_norms` -/
  gradNorms : List ℝ
  /-- `self._converged` -/
  converged : Bool
  /-- `self._final_energy` -/
  finalEnergy : Option ℝ
  /-- `self._n_classical_params_lst` -/
  nParams : List ℕ

namespace Adapt

/-- the local variables of the scan: `lgrst_grad`, `lgrst_grad_idx` and `(secnd_lgst_grad, secnd_lgrst_grad_idx)`; `none` is an unbound variable -/
structure Scan where
  largest : ℝ := 0
  idx : Option ℕ := none
  second : Option (ℝ × ℕ) := none

/-- the body of the loop over the gradients, adaptvqe.py:411-416 -/
noncomputable def scanStep (s : Scan) (p : ℝ × ℕ) : Except Exc Scan :=
  open Classical in
  if |s.largest| < |p.1| then
    if 0 < |s.largest| then
      match s.idx with
      | none => .error .nameError
      | some i => .ok { largest := p.1, idx := some p.2, second := some (s.largest, i) }
    else .ok { s with largest := p.1, idx := some p.2 }
  else .ok s

/-- `curr_norm`, adaptvqe.py:387, 404, 418 -/
noncomputable def gradNorm (grads : List ℝ) : ℝ := Real.sqrt (grads.map fun g => g ^ 2).sum

/-- `grads_sq.sort()`, adaptvqe.py:431-432: the pairs `(g², m)` in increasing order, ties by the index -/
noncomputable def gradsSq (grads : List ℝ) : List (ℝ × ℕ) :=
  open Classical in
  (grads.zipIdx.map fun p => (p.1 * p.1, p.2)).insertionSort (fun a b => a.1 < b.1 ∨ (a.1 = b.1 ∧ a.2 ≤ b.2))

/-- the loop over `grads_sq`, adaptvqe.py:434-441: `(gm_sq_sum, temp_order_tops)`; a zero amplitude is appended with every operator -/
noncomputable def cumStep (thresh : ℝ) (s : ℝ × List ℕ) (p : ℝ × ℕ) : ℝ × List ℕ :=
  open Classical in
  if thresh * thresh < s.1 + p.1 then (s.1 + p.1, p.2 :: s.2) else (s.1 + p.1, s.2)

/-- the indices appended to `self._tops`, adaptvqe.py:429-453 -/
noncomputable def newOps (O : AdaptOpts) (grads : List ℝ) (s : Scan) : Except Exc (List ℕ) :=
  if O.cumulative then .ok ((gradsSq grads).foldl (cumStep O.thresh) (0, [])).2
  else match s.idx with
    | none => .error .nameError
    | some m =>
      if O.addEquiv then
        match s.second with
        | none => .error .nameError
        | some (g2, m2) => open Classical in if |s.largest| - |g2| < 1e-5 then .ok [m, m2] else .ok [m]
      else .ok [m]

/-- `update_ansatz()`, adaptvqe.py:380-458, and `conv_status()`, adaptvqe.py:460-468 -/
noncomputable def updateAnsatz (o : DescSort) (so : SortOracle) (O : AdaptOpts) (st : AdaptState) : Except Exc AdaptState := do
  let grads ← st.ucc.measureGradient3 o so
  let s ← grads.zipIdx.foldlM scanStep {}
  let norm := gradNorm grads
  let st := { st with gradNorms := st.gradNorms ++ [norm] }
  if open Classical in |norm| < |O.thresh| then do
    let e ← (st.energies.getLast?).elim (.error .indexError) pure
    pure { st with converged := true, finalEnergy := some e }
  else do
    let ms ← newOps O grads s
    let tops := st.ucc.tops ++ ms
    pure { st with
      converged := false
      ucc := { st.ucc with tops := tops, tamps := st.ucc.tamps ++ ms.map fun _ => 0 }
      nParams := st.nParams ++ [tops.length] }

/-- `solve()`, adaptvqe.py:314-377.  `init_gues_energy` is evaluated before the optimizer is called. -/
noncomputable def solve (o : DescSort) (so : SortOracle) (par : Option Schedule) (S : Solver) (st : AdaptState) : Except Exc AdaptState := do
  let _ ← st.ucc.energyFeval o so par st.ucc.tamps
  let (x, e) ← S st.ucc
  pure { st with ucc := { st.ucc with tamps := x }, energies := st.energies ++ [e] }

/-- the loop of `run`, adaptvqe.py:162-191, when at most `k + 1` iterations remain, and `get_final_energy`, adaptvqe.py:197-202, 484-495 -/
noncomputable def loop (o : DescSort) (so : SortOracle) (par : Option Schedule) (S : Solver) (O : AdaptOpts) : ℕ → AdaptState → Except Exc AdaptState
  | k, st => do
    let st ← updateAnsatz o so O st
    if st.converged then pure st
    else do
      let st ← solve o so par S st
      match k with
      | 0 => do
        let e ← (st.energies.getLast?).elim (.error .indexError) pure
        pure { st with finalEnergy := some e }
      | k + 1 => loop o so par S O k st

/-- `run(...)`, adaptvqe.py:81-240, after the pool has been filled: the final state and `self._Egs`.  The bound on the number of iterations is tested at the end of an
iteration, so there is always one. -/
noncomputable def run (o : DescSort) (so : SortOracle) (par : Option Schedule) (S : Solver) (O : AdaptOpts) (A : UccAlg) : Except Exc (AdaptState × ℝ) := do
  let A := { A with tops := [], tamps := [] }
  let _ ← A.energyFeval o so par []
  let st ← loop o so par S O (O.maxiter.toNat - 1) { ucc := A, energies := [], gradNorms := [], converged := false, finalEnergy := none, nParams := [] }
  let e ← st.finalEnergy.elim (.error .attributeError) pure
  pure (st, e)

end Adapt
end QF
