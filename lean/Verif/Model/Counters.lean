import Verif.Model.Krylov

/-!
Model of the resource counters the quantum Krylov algorithms report: `qkd/srqk.py`, `qkd/mrsqk.py`.
-/
namespace QF

/-- `_n_classical_params`, `_n_cnot`, `_n_pauli_trm_measures` -/
structure Counters where
  params : ℕ
  cnot : ℤ
  measures : ℕ

/-- the three assignments to `_n_pauli_trm_measures` for `k` states, srqk.py:180-182, 198-202, mrsqk.py:210-212, 345-349 -/
def qkMeasures (Nl k : ℕ) : ℕ := k * Nl + k * (k - 1) * Nl + k * (k - 1)

namespace QkAlg

/-- the counters after `SRQK.build_qk_mats_fast()`, srqk.py:138-148, 195-202: `Um` is the circuit of the last state; `self._Nl` is the number of terms of the Hamiltonian -/
noncomputable def srqkCounters (A : QkAlg) : Except Exc Counters :=
  if A.nstates = 0 then .error .nameError else do
    let (C, _) ← A.evolution (A.nstates - 1)
    let Um := (Circuit.addCircuit [] A.uprep).addCircuit C
    pure ⟨A.nstates, 2 * Um.getNumCnots, qkMeasures A.ham.length A.nstates⟩

/-- the counters after `MRSQK.run()` without spin-adapted references, mrsqk.py:182-183, 197-212, 287-301, 327-349; `o` are the counters of the preliminary SRQK calculation,
`last` is the last determinant of `refs` and `each` is `diagonalize_each_step`: only with it the body of mrsqk.py:327-349 is executed.  `self._nstates` is `d` times the
states per reference, and so is `num_tot_basis` when `d` references were selected. -/
noncomputable def mrsqkCounters (A : QkAlg) (refs : List (List ℕ)) (last : List ℕ) (each : Bool) (o : Counters) : Except Exc Counters := do
  let (U, _) ← A.detPrep last none
  let (C, _) ← A.evolution (A.nstates - 1)
  let k := refs.length * A.nstates
  let n : ℤ := if each then (if k = 1 then o.cnot else 2 * (U.addCircuit C).getNumCnots) else o.cnot
  pure ⟨k, n, qkMeasures A.ham.length k + o.measures⟩

end QkAlg

end QF
