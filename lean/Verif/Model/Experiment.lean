import Verif.Model.Measure

/-!
Model of `experiment/experiment.py`.  The argument `params` of the two methods is ignored by the code (`set_parameters` is commented
out), so it is not a parameter here.
-/
namespace QF

/-- the attributes set by `Experiment.__init__`, experiment.py:11-38 -/
structure Experiment where
  nQubits : ℕ
  generator : Circuit
  operator : QubitOperator
  nSamples : ℕ
  prepareEachTime : Bool := false

namespace Experiment

/-- one iteration of the loop of `experimental_avg`, experiment.py:64-67; `p.2` is `k` and every call of `measure_circuit` has its own
random generator `s k` -/
noncomputable def sampleStep (E : Experiment) (s : ℕ → Sampler) (st : ℂ × Computer) (p : (ℂ × Circuit) × ℕ) : Except Exc (ℂ × Computer) := do
  let (m, q) ← st.2.measureCircuit (s p.2) p.1.2 E.nSamples
  pure (st.1 + p.1.1 * (m.sum : ℝ), q)

/-- `experimental_avg()`, experiment.py:41-76.  Dividing by zero samples raises. -/
noncomputable def experimentalAvg (E : Experiment) (s : ℕ → Sampler) : Except Exc ℝ :=
  if E.prepareEachTime then .error .exception else do
    let q ← (Computer.init E.nQubits).applyCircuit E.generator
    let r ← E.operator.zipIdx.foldlM (E.sampleStep s) (0, q)
    if E.nSamples = 0 then .error .zeroDivisionError else pure (r.1 / (E.nSamples : ℂ)).re

/-- `perfect_experimental_avg()`, experiment.py:78-110 -/
noncomputable def perfectAvg (E : Experiment) : Except Exc ℝ :=
  if E.prepareEachTime then .error .exception else do
    let q ← (Computer.init E.nQubits).applyCircuit E.generator
    let r ← E.operator.foldlM (fun (st : ℂ × Computer) t => do
      let (v, q) ← st.2.perfectMeasureCircuit t.2
      pure (st.1 + t.1 * (v : ℝ), q)) (0, q)
    pure r.1.re

end Experiment
end QF
