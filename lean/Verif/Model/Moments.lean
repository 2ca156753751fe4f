import Verif.Model.SPQE

/-!
Model of `utils/moment_energy_corrections.py` and of `build_orb_energies` of `abc/ansatz.py`.
-/
namespace QF
namespace Moments
open SQOperator (DescSort)
open QubitOperator (SortOracle)
open Spqe

/-- `build_orb_energies`, ansatz.py:84-119; `hf` is `self._sys.hf_orbital_energies` if the system has that attribute -/
noncomputable def buildOrbEnergies (par : Option Schedule) (A : PqeAlg) (hf : Option (List ℝ)) : Except Exc (List ℂ) :=
  match hf with
  | some l => .ok (l.flatMap fun j : ℝ => [(j : ℂ), (j : ℂ)])
  | none => do
    let q ← (Computer.init A.nqb).applyCircuit A.refprep
    let (e0, _) ← q.directOpExpVal par A.ham
    (List.range A.nqb).mapM fun i => do
      let q ← (Computer.init A.nqb).applyCircuit A.refprep
      let g ← makeGate "X" i i 0
      let q ← q.applyGate g
      let (ei, _) ← q.directOpExpVal par A.ham
      pure (if i < A.ref.sum then e0 - ei else ei - e0)

/-- the attributes that `construct_moment_space` fills -/
structure Space where
  /-- the elements of `self._mmcc_pool` -/
  pool : List (ℂ × SQOperator) := []
  /-- `self._mpdenom` -/
  mpdenom : List ℂ := []
  /-- `self._mmcc_excitation_indices` -/
  indices : List ℕ := []

/-- the treatment of `_max_moment_rank`, moment_energy_corrections.py:44-49; values that are not integers are not modelled -/
def momentRank (ref : List ℕ) (rank : ℤ) : Except Exc ℕ :=
  if rank < 0 then .error .typeError else .ok (min rank.toNat (spinCount 0 ref + spinCount 1 ref))

/-- the body of the loop over `I`, moment_energy_corrections.py:51-90 -/
noncomputable def momentStep (o : DescSort) (ref orbIrreps : List ℕ) (orbE : List ℂ) (max : ℕ) (S : Space) (I : ℕ) : Except Exc Space :=
  let alphas := binDigits (I &&& maskAlpha)
  let betas := binDigits (I &&& maskBeta)
  if alphas.sum = spinCount 0 ref ∧ betas.sum = spinCount 1 ref then do
    let irr ← findIrrep orbIrreps (setPositions alphas ++ setPositions betas)
    if irr = 0 then
      let excit := binDigits (refInt ref ^^^ I)
      if excit ≠ [0] ∧ excit.count 1 / 2 ≤ max then do
        let occ ← excitPos ref 1 excit
        let vir ← excitPos ref 0 excit
        let op ← SQOperator.simplify o ((SQOperator.addTerm [] 1 vir occ).addTerm (-1) occ.reverse vir.reverse)
        let eo ← occ.mapM (pyIndex orbE)
        let ev ← vir.mapM (pyIndex orbE)
        pure { pool := S.pool ++ [(0, op)], mpdenom := S.mpdenom ++ [eo.sum - ev.sum], indices := S.indices ++ [I] }
      else pure S
    else pure S
  else pure S

/-- one Epstein-Nesbet denominator, moment_energy_corrections.py:92-98 -/
noncomputable def epsteinNesbet (o : DescSort) (par : Option Schedule) (A : PqeAlg) (op : SQOperator) : Except Exc ℂ := do
  let q ← (Computer.init A.nqb).applyCircuit A.refprep
  let (Q, _) ← op.jwTransform o A.qubitExc
  let q ← q.applyOperator Q
  let (e, _) ← q.directOpExpVal par A.ham
  pure e

/-- `construct_moment_space`, moment_energy_corrections.py:19-98, with `self._orb_e` given: the space and
`self._epstein_nesbet` -/
noncomputable def constructSpace (o : DescSort) (par : Option Schedule) (A : PqeAlg) (orbIrreps : List ℕ) (orbE : List ℂ) (rank : ℤ) :
    Except Exc (Space × List ℂ) := do
  let max ← momentRank A.ref rank
  let S ← (List.range (1 <<< A.nqb)).foldlM (momentStep o A.ref orbIrreps orbE max) {}
  let en ← S.pool.mapM fun t => epsteinNesbet o par A t.2
  pure (S, en)

open Classical in
/-- `np.real(np.conj(r) * r / d)`, moment_energy_corrections.py:130, 136-140; numpy does not raise on a zero denominator: the
quotient is then not a finite number, `none` -/
noncomputable def quotient (r d : ℂ) : Option ℝ := if d = 0 then none else some ((starRingEnd ℂ) r * r / d).re

/-- the sum of a list of floats, some of which may not be finite -/
noncomputable def sumFinite (l : List (Option ℝ)) : Option ℝ := l.foldl (fun s x => s.bind fun a => x.map (a + ·)) (some 0)

open Classical in
/-- `compute_moment_energies`, moment_energy_corrections.py:101-144: the two energies it appends. The amplitudes are
divided by `dt` in python, which raises on zero. -/
noncomputable def momentEnergies (o : DescSort) (so : SortOracle) (A : PqeAlg) (S : Space) (en : List ℂ) (energy : ℝ) (dt? : Option ℝ) :
    Except Exc (Option ℝ × Option ℝ) := do
  let dt := dt?.getD 0.001
  let (eiH, _) ← trotterize A.ham ((dt : ℂ) * Complex.I) A.trotterNumber
  let U ← A.ansatzCircuit o so none
  let q ← (Computer.init A.nqb).applyCircuit A.uprep
  let q ← q.applyCircuit U
  let q ← q.applyCircuit eiH
  let q ← q.applyCircuit U.adjoint
  if dt = 0 then .error .zeroDivisionError
  let res := q.coeff.map (· / (dt : ℂ))
  let mmcc ← S.indices.mapM (pyIndex res)
  let mp ← (List.range mmcc.length).mapM fun i => do
    let r ← pyIndex mmcc i
    let d ← pyIndex S.mpdenom i
    pure (quotient r d)
  let ens ← (List.range mmcc.length).mapM fun i => do
    let r ← pyIndex mmcc i
    let d ← pyIndex en i
    pure (quotient r ((energy : ℂ) - d))
  pure ((sumFinite mp).map (energy + ·), (sumFinite ens).map (energy + ·))

end Moments
end QF
