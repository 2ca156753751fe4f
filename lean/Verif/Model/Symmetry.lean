import Verif.Model.Measure
import Verif.Model.Spin
import Verif.Model.StatePrep
import Verif.Model.Psi
import Verif.Model.Api

/-!
Model of `utils/symmetry_analysis.py`. The function prints its results; the model returns the printed quantities. Python
floats are real numbers, the printed rounding to ten digits is left out.
-/
namespace QF

/-- what `symmetry_check` prints, symmetry_analysis.py:117-170 -/
structure SymReport where
  nWeights : List ℝ
  nExp : ℝ
  nVar : ℝ
  szValues : List ℝ
  szWeights : List ℝ
  szExp : ℝ
  szVar : ℝ
  s2Exp : ℝ
  s2Var : ℝ
  irrepWeights : List ℝ
  targetName : String
  targetWeight : ℝ

/-- the particle number operator, symmetry_analysis.py:41-47 -/
noncomputable def symNumber (n : ℕ) : Except Exc QubitOperator := do
  let N : QubitOperator := QubitOperator.addTerm [] ((n : ℂ) / 2) []
  (List.range n).foldlM (fun (N : QubitOperator) k => do
    let g ← makeGate "Z" k k 0
    pure (N.addTerm (-0.5) (Circuit.addGate [] g))) N

/-- the expectation value and the variance of `A`, symmetry_analysis.py:48-58 (and 61-70, 73-82): the square is taken with
`operator_product`, a value that is not real is refused -/
noncomputable def symMoments (q : Computer) (par : Option Schedule) (A : QubitOperator) : Except Exc (ℝ × ℝ × Computer) := do
  let A2 ← (QubitOperator.addOp [] A).operatorProduct A true true
  let (e, q1) ← q.directOpExpVal par A
  let (e2, q2) ← q1.directOpExpVal par A2
  let var := e2 - e ^ 2
  if e.im ≠ 0 ∨ var.im ≠ 0 then .error .valueError
  pure (e.re, var.re, q2)

/-- `Sz_values`, symmetry_analysis.py:91 -/
noncomputable def szValues (n : ℕ) : List ℝ := (List.range (n + 1)).map fun i : ℕ => -(n : ℝ) * 0.25 + 0.5 * (i : ℝ)

open Classical in
/-- `Sz_values_dictionary[Sz_value]`, symmetry_analysis.py:92, 114: the values are distinct -/
noncomputable def szIndex (n : ℕ) (v : ℝ) : Except Exc ℕ :=
  match (szValues n).idxOf? v with
  | some i => .ok i
  | none => .error .keyError

/-- `l[i] += w` -/
noncomputable def addAt (l : List ℝ) (i : ℕ) (w : ℝ) : Except Exc (List ℝ) :=
  match l[i]? with
  | some x => .ok (l.set i (x + w))
  | none => .error .indexError

/-- the accumulators of the loop, symmetry_analysis.py:85-93 -/
structure SymAcc where
  target : ℝ
  perN : List ℝ
  perSz : List ℝ
  perIrrep : List ℝ

/-- the occupied alpha spin orbitals, symmetry_analysis.py:95-99 -/
def occAlpha (n det : ℕ) : List ℕ := (evens n).filter fun i => det.testBit i

/-- the occupied beta spin orbitals, symmetry_analysis.py:96-101 -/
def occBeta (n det : ℕ) : List ℕ := ((evens n).filter fun i => det.testBit (i + 1)).map (· + 1)

open Classical in
/-- one determinant, symmetry_analysis.py:94-115 -/
noncomputable def symDet (q : Computer) (n : ℕ) (orb : List ℕ) (tN : ℤ) (tSz : ℝ) (tIr : ℤ) (s : SymAcc) (det : ℕ) : Except Exc SymAcc := do
  let occ := occAlpha n det ++ occBeta n det
  let c ← pyAt q.coeff det
  let w := (c * (starRingEnd ℂ) c).re
  let sz : ℝ := (((occAlpha n det).length : ℝ) - (occBeta n det).length) * 0.5
  let irrep ← findIrrep orb occ
  let target := if (occ.length : ℤ) = tN ∧ sz = tSz ∧ (irrep : ℤ) = tIr then s.target + w else s.target
  let perN ← addAt s.perN occ.length w
  let k ← szIndex n sz
  let perSz ← addAt s.perSz k w
  let perIrrep ← addAt s.perIrrep irrep w
  pure ⟨target, perN, perSz, perIrrep⟩

/-- `irreps[target_irrep]`, symmetry_analysis.py:167: python accepts negative positions -/
def pyItem {α : Type} (l : List α) (i : ℤ) : Except Exc α :=
  if 0 ≤ i then pyAt l i.toNat
  else if 0 ≤ i + l.length then pyAt l (i + l.length).toNat
  else .error .indexError

/-- `symmetry_check`, symmetry_analysis.py:5-170 -/
noncomputable def symmetryCheck (o : SQOperator.DescSort) (par : Option Schedule) (n : ℕ) (q : Computer) (irreps : List String) (orb : List ℕ) (tN : ℤ)
    (tSz : ℝ) (tIr : ℤ) : Except Exc (SymReport × Computer) := do
  let N ← symNumber n
  let (nE, nV, q1) ← symMoments q par N
  let Sz ← totalSpinZ o n
  let (zE, zV, q2) ← symMoments q1 par Sz
  let S2 ← totalSpinSquared o n
  let (sE, sV, q3) ← symMoments q2 par S2
  let acc ← (List.range (1 <<< n)).foldlM (symDet q3 n orb tN tSz tIr)
    ⟨0, List.replicate (n + 1) 0, List.replicate (n + 1) 0, List.replicate irreps.length 0⟩
  let name ← pyItem irreps tIr
  pure (⟨acc.perN, nE, nV, szValues n, acc.perSz, zE, zV, sE, sV, acc.perIrrep, name, acc.target⟩, q3)

end QF
