import Verif.Model.IO
import Verif.Model.SQOperator
import Verif.Model.StatePrep

/-!
Model of `adapters/model_adapters.py`, `system/system_factory.py`, `utils/point_groups.py` and
`adapters/molecule_adapters.py` (the json adapter, and the part of the psi4 adapter that is not psi4).
-/
namespace QF

/-- `f"{i}"` -/
def pyStr (i : ℕ) : List Char := Nat.toDigits 10 i

/-- `create_TFIM(n, h, J)`, model_adapters.py:5-31: the hamiltonian and the reference of the system it returns.
`range` and `[0] * n` treat a negative integer as zero, so `n` is a natural number here. -/
noncomputable def createTFIM (N : PyNum) (n : ℕ) (h J : ℝ) : Except Exc (QubitOperator × List ℕ) := do
  let circuit : List (ℂ × List Char) := (List.range n).map fun i => (((-h : ℝ) : ℂ), ['Z', '_'] ++ pyStr i)
  let circuit := circuit ++ (List.range (n - 1)).map fun i => (((-J : ℝ) : ℂ), ['X', '_'] ++ pyStr i ++ [' ', 'X', '_'] ++ pyStr (i + 1))
  let ham ← circuit.foldlM (fun (A : QubitOperator) t => do return A.addTerm t.1 (← buildCircuit N t.2)) []
  return (ham, List.replicate n 0)

/-- the adapters `system_factory` chooses between -/
inductive SysAdapter
  | external
  | psi4
  | tfim
  deriving DecidableEq

/-- the choice made by `system_factory(system_type, build_type)`, system_factory.py:25-57 -/
def systemFactory (systemType buildType : String) : Except Exc SysAdapter :=
  if systemType = "molecule" then
    if buildType = "external" then .ok .external else if buildType = "psi4" then .ok .psi4 else .error .typeError
  else if systemType = "model" then
    if buildType = "TFIM" then .ok .tfim else .error .typeError
  else .error .typeError

/-- `point_group_to_irreps`, point_groups.py:19-28 -/
def pointGroupToIrreps : List (String × List String) :=
  [("c1", ["A"]), ("c2", ["A", "B"]), ("ci", ["Ag", "Au"]), ("cs", ["Ap", "App"]), ("d2", ["A", "B1", "B2", "B3"]),
   ("c2h", ["Ag", "Bg", "Au", "Bu"]), ("c2v", ["A1", "A2", "B1", "B2"]),
   ("d2h", ["Ag", "B1g", "B2g", "B3g", "Au", "B1u", "B2u", "B3u"])]

/-- `s.lower()` on ASCII strings -/
def pyLower (s : String) : String := String.ofList (s.toList.map Char.toLower)

/-- `irreps_of_point_groups(point_group)`, point_groups.py:12-35 -/
def irrepsOfPointGroups (pg : String) : Except Exc (List String) :=
  match pointGroupToIrreps.lookup (pyLower pg) with
  | some l => .ok l
  | none => .error .valueError

/-- the rows of irreps printed by `char_table([group, irreps])`, point_groups.py:62-82: entry `(i, j)` is `irreps[i ^ j]` -/
def charTable (group : String) (irreps : List String) : Except Exc (List (List String)) :=
  if pyLower group ∉ ["c1", "c2", "ci", "cs", "d2", "c2h", "c2v", "d2h"] then .error .valueError
  else (List.range irreps.length).mapM fun i => (List.range irreps.length).mapM fun j =>
    match irreps[i ^^^ j]? with
    | some s => .ok s
    | none => .error .indexError

/-- the `data` entries of the json file read by `create_external_mol`; `none` is a missing key -/
structure ExternalData where
  scalarEnergy : ℝ
  oei : List (ℕ × ℕ × ℝ)
  tei : List (ℕ × ℕ × ℕ × ℕ × ℝ)
  nso : ℕ
  na : ℕ
  nb : ℕ
  pointGroup : Option String
  symmetry : Option (List ℕ)

/-- the attributes of the `Molecule` returned by the adapters -/
structure Molecule where
  pointGroup : String × List String
  orbIrreps : List String
  orbIrrepsToInt : List ℕ
  hfReference : List ℕ
  sqHamiltonian : SQOperator
  hamiltonian : QubitOperator

/-- `l[::2]` -/
def pyEven {α : Type} : List α → List α
  | [] => []
  | [a] => [a]
  | a :: _ :: l => a :: pyEven l

/-- `l[i] = v` for a list and a non-negative index -/
def pySetItem {α : Type} (l : List α) (i : ℕ) (v : α) : Except Exc (List α) := if i < l.length then .ok (l.set i v) else .error .indexError

/-- the body of the loop at molecule_adapters.py:269-271: append the name and the number of one irrep -/
def externalIrrepStep (irreps : List String) (p : List String × List ℕ) (i : ℕ) : Except Exc (List String × List ℕ) :=
  match irreps[i]? with
  | some s => .ok (p.1 ++ [s], p.2 ++ [i])
  | none => .error .indexError

/-- `create_external_mol`, molecule_adapters.py:263-271: the irreps of the spatial orbitals.
`int(nso / 2)` is the integer quotient. -/
def externalIrreps (D : ExternalData) (pg : String) (irreps : List String) : Except Exc (List String × List ℕ) :=
  if pg = "C1" then .ok (List.replicate (D.nso / 2) "A", List.replicate (D.nso / 2) 0)
  else match D.symmetry with
    | none => .error .keyError
    | some sym => (pyEven sym).foldlM (externalIrrepStep irreps) ([], [])

/-- `create_external_mol`, molecule_adapters.py:273-283: the second-quantised Hamiltonian -/
noncomputable def externalSqHam (D : ExternalData) : SQOperator :=
  let H : SQOperator := SQOperator.addTerm [] (D.scalarEnergy : ℂ) [] []
  let H := D.oei.foldl (fun (H : SQOperator) t => H.addTerm (t.2.2 : ℂ) [t.1] [t.2.1]) H
  D.tei.foldl (fun (H : SQOperator) t => H.addTerm ((t.2.2.2.2 / 4 : ℝ) : ℂ) [t.1, t.2.1] [t.2.2.2.1, t.2.2.1]) H

/-- `create_external_mol`, molecule_adapters.py:285-289: the occupation list -/
def externalReference (D : ExternalData) : Except Exc (List ℕ) := do
  let r := List.replicate D.nso 0
  let r ← (List.range D.na).foldlM (fun r i => pySetItem r (i * 2) 1) r
  (List.range D.nb).foldlM (fun r i => pySetItem r (i * 2 + 1) 1) r

/-- `create_external_mol`, molecule_adapters.py:232-297.  `jw_transform` simplifies the operator it is called on, which is the
object stored as `sq_hamiltonian`. -/
noncomputable def createExternalMol (o : SQOperator.DescSort) (D : ExternalData) : Except Exc Molecule := do
  let pg := D.pointGroup.getD "C1"
  let irreps ← irrepsOfPointGroups pg
  let (oi, oii) ← externalIrreps D pg irreps
  let ref ← externalReference D
  let (Q, R) ← (externalSqHam D).jwTransform o false
  return ⟨(pg, irreps), oi, oii, ref, R, Q⟩

end QF
