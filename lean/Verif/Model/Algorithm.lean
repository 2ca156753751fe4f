import Verif.Model.UCC
import Verif.Model.PQE
import Verif.Model.Penalty
import Verif.Model.SQPool2
import Verif.Model.ADAPT

/-!
Model of the construction of an algorithm object, `abc/algorithm.py: Algorithm.__init__`, `AnsatzAlgorithm.__init__`, of
`AnsatzAlgorithm.fill_pool` and of `UCCNVQE.run`, `ucc/uccnvqe.py`.  Printing, counters and the noise option are left out.
-/
namespace QF

open SQOperator (DescSort)
open QubitOperator (SortOracle)

/-- what the constructors read of a system object, system/molecular_info.py; the attributes of a `Molecule` or `System` that need
not have been set are options (reading one that is not set raises `AttributeError`, `hasattr` is then false) -/
structure QSystem where
  /-- `system.hf_reference` -/
  hfReference : Option (List ℕ)
  /-- `system.hamiltonian` -/
  hamiltonian : QubitOperator
  /-- `system.hf_energy` -/
  hfEnergy : Option ℝ := none
  /-- `system.frozen_core`, `system.frozen_virtual` -/
  frozen : Option (ℕ × ℕ) := none
  /-- `system.orb_irreps_to_int` -/
  orbIrreps : Option (List ℕ) := none
  /-- `system.point_group` -/
  pointGroup : Option (String × List String) := none

/-- the argument `reference`: `None`, a Python list of non-negative integers, a `Circuit`, a `Computer` or something else -/
inductive RefArg where
  | none
  | list (l : List ℕ)
  | circuit (C : Circuit)
  | computer (q : Computer)
  | other

/-- the concrete classes: ucc/uccnvqe.py:22, ucc/adaptvqe.py:23, ucc/uccnpqe.py:24, ucc/spqe.py:21, qpea/qpe.py:19; `other` stands for
QITE, SRQK, NTSRQK and MRSQK, which the two constructors do not tell apart -/
inductive AlgClass where
  | uccnvqe
  | adaptvqe
  | uccnpqe
  | spqe
  | qpe
  | other
deriving DecidableEq

/-- `self.computer_initializable`: only `UCCVQE.__init__`, uccvqeabc.py:73-75, sets it -/
def AlgClass.computerInitializable : AlgClass → Bool
  | uccnvqe => true
  | adaptvqe => true
  | _ => false

/-- the Python values that can occur in the argument `penalty`: real numbers, operators, lists, dictionaries with string keys and
anything else (booleans count as numbers for `isinstance(_, (int, float))`) -/
inductive PyVal where
  | num (x : ℝ)
  | op (A : QubitOperator)
  | list (l : List PyVal)
  | dict (d : List (String × PyVal))
  | other

/-- the arguments of the constructors; `irrep` of `kwargs` -/
structure AlgArgs where
  reference : RefArg := .none
  statePrep : String := "occupation_list"
  fast : Bool := true
  trotterNumber : ℤ := 1
  qubitExc : Bool := false
  compact : Bool := false
  penalty : Option PyVal := none
  irrep : Option ℤ := none

/-- the attributes of an algorithm object after `__init__` -/
structure AlgObj where
  /-- the class -/
  cls : AlgClass
  /-- `self._sys` -/
  sys : QSystem
  /-- `self._ref` -/
  ref : List ℕ
  /-- `self._refprep` -/
  refprep : Circuit
  /-- `self._Uprep` -/
  uprep : Circuit
  /-- `self.computer` -/
  computer : Option Computer
  /-- `self._nqb` -/
  nqb : ℕ
  /-- `self._qb_ham` -/
  ham : QubitOperator
  /-- `self._hf_energy` -/
  hfEnergy : ℝ
  /-- `self._Nl` -/
  nl : ℕ
  /-- `self._irrep` -/
  irrep : Option ℕ := none

/-- `system.hf_reference` -/
def QSystem.getReference (S : QSystem) : Except Exc (List ℕ) :=
  match S.hfReference with
  | some r => .ok r
  | none => .error .attributeError

/-- `hasattr(system, "frozen_core")` and `system.frozen_core + system.frozen_virtual > 0`, algorithm.py:68-69 -/
def QSystem.frozenTest (S : QSystem) : Bool :=
  match S.frozen with
  | some (c, v) => decide (c + v > 0)
  | none => false

/-- the reference part of `Algorithm.__init__`, algorithm.py:72-118: `_ref`, `_Uprep`, `computer`; `_refprep` is
`build_refprep(_ref)` in the three branches -/
noncomputable def referencePart (cls : AlgClass) (S : QSystem) (a : AlgArgs) : Except Exc (List ℕ × Circuit × Circuit × Option Computer) :=
  if a.statePrep = "occupation_list" then do
    let ref ← (match a.reference with
      | .none => S.getReference
      | .list l => pure l
      | _ => .error .valueError)
    let prep ← buildRefprep ref
    pure (ref, prep, prep, none)
  else if a.statePrep = "unitary_circ" then
    match a.reference with
    | .circuit C => do
      let ref ← S.getReference
      let prep ← buildRefprep ref
      pure (ref, prep, C, none)
    | _ => .error .valueError
  else if a.statePrep = "computer" then
    match a.reference with
    | .computer q =>
      if a.fast = false then .error .valueError
      else do
        let ref ← S.getReference
        if q.nqubit ≠ ref.length then .error .valueError
        else if cls.computerInitializable = false then .error .valueError
        else do
          let prep ← buildRefprep ref
          pure (ref, prep, [], some q)
    | _ => .error .valueError
  else .error .valueError

/-- `Algorithm.__init__`, algorithm.py:58-147 -/
noncomputable def algorithmInit (cls : AlgClass) (S : QSystem) (a : AlgArgs) : Except Exc AlgObj :=
  if cls = .qpe ∧ S.frozenTest = true then .error .valueError
  else do
    let (ref, prep, U, q) ← referencePart cls S a
    if S.hamiltonian.numQubits ≠ ref.length then .error .valueError
    else pure { cls := cls, sys := S, ref := ref, refprep := prep, uprep := U, computer := q, nqb := ref.length, ham := S.hamiltonian,
                hfEnergy := S.hfEnergy.getD 0, nl := S.hamiltonian.length }

/-- `isinstance(value, list)`, algorithm.py:379 -/
def PyVal.asList : PyVal → Option (List PyVal)
  | .list l => some l
  | _ => none

/-- `isinstance(op, qf.QubitOperator)`, algorithm.py:391-394 -/
def PyVal.asOp : PyVal → Option QubitOperator
  | .op A => some A
  | _ => none

/-- `isinstance(eigval, (int, float))`, algorithm.py:398-401, 403-406 -/
def PyVal.asNum : PyVal → Option ℝ
  | .num x => some x
  | _ => none

/-- `penalty[key]`: a dictionary has one value for a key -/
def pyLookup (d : List (String × PyVal)) (k : String) : Option PyVal := (d.find? fun p => p.1 = k).map Prod.snd

/-- the checks on `penalty`, algorithm.py:371-411, and the three lists -/
def checkPenalty (v : PyVal) : Except Exc (List QubitOperator × List ℝ × List ℝ) :=
  match v with
  | .dict d =>
    -- set(self._penalty.keys()) == expected_keys
    if ¬((∀ p ∈ d, p.1 ∈ ["operators", "eigenvalues", "scaling_factors"]) ∧ ∀ k ∈ ["operators", "eigenvalues", "scaling_factors"], k ∈ d.map Prod.fst) then
      .error .valueError
    else if ¬(∀ p ∈ d, p.2.asList.isSome = true) then .error .valueError
    else match (pyLookup d "operators").bind PyVal.asList, (pyLookup d "eigenvalues").bind PyVal.asList, (pyLookup d "scaling_factors").bind PyVal.asList with
      | some ops, some eigs, some scales =>
        if ¬(ops.length = eigs.length ∧ eigs.length = scales.length) then .error .valueError
        else match ops.mapM PyVal.asOp, eigs.mapM PyVal.asNum, scales.mapM PyVal.asNum with
          | some o, some e, some s => .ok (o, e, s)
          | _, _, _ => .error .valueError
      | _, _, _ => .error .keyError
  | _ => .error .valueError

/-- the choice of the irrep, algorithm.py:428-456 -/
def chooseIrrep (pg : Option (String × List String)) (irrep : Option ℤ) : Except Exc (Option ℕ) :=
  match pg, irrep with
  | some _, none => .ok (some 0)
  | some g, some i => if 0 ≤ i ∧ i < g.2.length then .ok (some i.toNat) else .error .valueError
  | none, _ => .ok none

/-- `AnsatzAlgorithm.__init__`, algorithm.py:336-456; `super().__init__` comes first -/
noncomputable def ansatzInit (cls : AlgClass) (S : QSystem) (a : AlgArgs) : Except Exc AlgObj := do
  let A ← algorithmInit cls S a
  let A ← (match a.penalty with
    | none => pure A
    | some v =>
      if cls = .uccnpqe ∨ cls = .spqe then .error .valueError
      else do
        let (ops, eigs, scales) ← checkPenalty v
        let H ← penaltyHamiltonian false S.hamiltonian ops eigs scales
        pure { A with ham := H, nl := H.length })
  let i ← chooseIrrep S.pointGroup a.irrep
  pure { A with irrep := i }

/-- the argument `pool_type` of `run`: a name or a pool -/
inductive PoolArg where
  | name (s : String)
  | pool (P : SQOpPool)

/-- `fill_pool()`, algorithm.py:290-307: the pool object -/
noncomputable def AlgObj.fillPool (N : SQOpPool.NextPerm) (o : DescSort) (fuel : ℕ) (A : AlgObj) (t : PoolArg) : Except Exc SQOpPool :=
  match t with
  | .name s =>
    if s ∈ ["sa_SD", "GSD", "SD", "SDT", "SDTQ", "SDTQP", "SDTQPH"] then do
      let P ← SQOpPool.setOrbSpaces {} A.ref (A.sys.orbIrreps.getD [])
      P.fillPool N o fuel s
    else .error .valueError
  | .pool P => .ok P

/-- `self._Nm`, algorithm.py:305-307: the numbers of Pauli terms; `jw_transform` simplifies the operators of the pool in place, so that
the pool afterwards holds the simplified ones -/
noncomputable def poolNm (o : DescSort) (P : SQOpPool) : Except Exc (List ℕ × SQOpPool) := do
  let r ← P.terms.mapM fun t => do
    let (Q, B) ← t.2.jwTransform o false
    pure (Q.length, (t.1, B))
  pure (r.map Prod.fst, { P with terms := r.map Prod.snd })

/-- the object whose functions `energy_feval`, `measure_gradient`, … the run calls -/
noncomputable def AlgObj.ucc (A : AlgObj) (a : AlgArgs) (t : PoolArg) (P : SQOpPool) (tops : List ℕ) (tamps : List ℝ) : UccAlg :=
  { nqb := A.nqb, computer := A.computer, uprep := A.uprep, ham := A.ham, pool := P.terms,
    saSD := (match t with | .name s => decide (s = "sa_SD") | .pool _ => false), tops := tops, tamps := tamps,
    compact := a.compact, qubitExc := a.qubitExc, trotterNumber := a.trotterNumber }

end QF
