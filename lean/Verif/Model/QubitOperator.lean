import Verif.Model.Circuit
import Mathlib.Data.String.Basic

/-!
Model of `src/qforte/qubit_operator.{h,cc}` (except `sparse_matrix`, see Model/Sparse.lean, and `str`).
A `QubitOperator` has the single data member `std::vector<std::pair<complex, Circuit>> terms_`.
-/
namespace QF

open Classical in
/-- `operator<(Gate, Gate)`, gate.cc:203-219 -/
noncomputable def Gate.lt (l r : Gate) : Bool :=
  if l.label ≠ r.label then decide (l.label < r.label)
  else if l.target ≠ r.target then decide (l.target < r.target)
  else if l.control ≠ r.control then decide (l.control < r.control)
  else match l.parameter, r.parameter with
    | some p, some q => decide (p < q)
    | _, _ => false

/-- `operator<(Circuit, Circuit)`, circuit.cc:346: lexicographic comparison of the gate vectors -/
noncomputable def Circuit.lt : Circuit → Circuit → Bool
  | [], [] => false
  | [], _ :: _ => true
  | _ :: _, [] => false
  | a :: as, b :: bs => if a.lt b then true else if b.lt a then false else Circuit.lt as bs

abbrev QubitOperator := List (ℂ × Circuit)

namespace QubitOperator

/-- `add_term`, qubit_operator.cc:26-28 -/
def addTerm (A : QubitOperator) (z : ℂ) (c : Circuit) : QubitOperator := A ++ [(z, c)]

/-- `add_op`, qubit_operator.cc:30-34, for an argument that is a different object than `*this` -/
def addOp (A B : QubitOperator) : QubitOperator := B.foldl (fun A t => A ++ [(t.1, t.2)]) A

/-- `set_coeffs`, qubit_operator.cc:36-43 -/
def setCoeffs (A : QubitOperator) (zs : List ℂ) : Except Exc QubitOperator :=
  if zs.length ≠ A.length then .error .invalidArgument
  else .ok (List.zipWith (fun z t => (z, t.2)) zs A)

/-- `mult_coeffs`, qubit_operator.cc:45-49 -/
def multCoeffs (A : QubitOperator) (z : ℂ) : QubitOperator := A.map fun t => (t.1 * z, t.2)

/-- `canonical_order`, qubit_operator.cc:74-78 -/
noncomputable def canonicalOrder (A : QubitOperator) : Except Exc QubitOperator :=
  A.mapM fun t => do
    let r ← t.2.canonicalizePauli
    pure (t.1 * r.1, r.2)

/-- one iteration of the loop of `simplify` (qubit_operator.cc:83-90) on a `std::map<Circuit, complex>`,
represented by the list of its entries in key order: equivalent keys (neither `<` the other) are combined -/
noncomputable def mapAdd (k : Circuit) (v : ℂ) : List (Circuit × ℂ) → List (Circuit × ℂ)
  | [] => [(k, v)]
  | (k', v') :: m =>
    if k.lt k' then (k, v) :: (k', v') :: m
    else if k'.lt k then (k', v') :: mapAdd k v m
    else (k', v' + v) :: m

/-- the map built by `simplify`, qubit_operator.cc:82-90 -/
noncomputable def buildMap (A : QubitOperator) : List (Circuit × ℂ) :=
  A.foldl (fun m t => mapAdd t.2 t.1 m) []

open Classical in
/-- `simplify`, qubit_operator.cc:80-103 -/
noncomputable def simplify (A : QubitOperator) (combine : Bool := true) : Except Exc QubitOperator := do
  let A ← A.canonicalOrder
  let m := buildMap A
  if combine then pure ((m.filter fun e => decide (‖e.2‖ > 1e-12)).map fun e => (e.2, e.1))
  else pure (m.map fun e => (e.2, e.1))

/-- the double loop of `operator_product`, qubit_operator.cc:111-120 -/
def products (A B : QubitOperator) : QubitOperator :=
  A.flatMap fun l => B.map fun r => (l.1 * r.1, (Circuit.addCircuit [] l.2).addCircuit r.2)

/-- `operator_product`, qubit_operator.cc:105-127, for an argument that is a different object than `*this` -/
noncomputable def operatorProduct (A B : QubitOperator) (pre post : Bool) : Except Exc QubitOperator := do
  let A ← (if pre then A.simplify else pure A)
  if post then (A.products B).simplify else (A.products B).canonicalOrder

/-- `A.operator_product(A)`, qubit_operator.cc:105-127: the argument is a reference to the object being
simplified -/
noncomputable def operatorProductSelf (A : QubitOperator) (pre post : Bool) : Except Exc QubitOperator := do
  let A ← (if pre then A.simplify else pure A)
  if post then (A.products A).simplify else (A.products A).canonicalOrder

/-- the comparator passed to `std::sort` by `order_terms`, qubit_operator.cc:53-71: targets first, then labels,
up to the shorter length; the last line compares a size with itself -/
def orderCmp (a b : Circuit) : Bool :=
  let n := min a.length b.length
  match (List.range n).find? (fun k => decide ((a[k]?.map Gate.target) ≠ (b[k]?.map Gate.target))) with
  | some k => decide ((a[k]?.map Gate.target).getD 0 < (b[k]?.map Gate.target).getD 0)
  | none =>
    match (List.range n).find? (fun k => decide ((a[k]?.map Gate.label) ≠ (b[k]?.map Gate.label))) with
    | some k => decide ((a[k]?.map Gate.label).getD "" < (b[k]?.map Gate.label).getD "")
    | none => decide (a.length < a.length)

/-- What `std::sort` in `order_terms` (qubit_operator.cc:51-72) does to the simplified terms: the comparator
looks at the circuits only and is not a strict weak ordering, so all that is assumed is that the result is a
permutation that depends on the circuits only.  `perm` gives the new order as a list of positions. -/
structure SortOracle where
  perm : List Circuit → List ℕ
  isPerm : ∀ l, (perm l).Perm (List.range l.length)

/-- `order_terms`, qubit_operator.cc:51-72 -/
noncomputable def orderTerms (o : SortOracle) (A : QubitOperator) : Except Exc QubitOperator := do
  let A ← A.simplify
  pure ((o.perm (A.map Prod.snd)).filterMap fun i => A[i]?)

open Classical in
/-- `check_op_equivalence`, qubit_operator.cc:133-150: the comparison; also returns `*this` after the call -/
noncomputable def checkOpEquivalence (o : SortOracle) (A B : QubitOperator) (reorder : Bool) :
    Except Exc (Bool × QubitOperator) := do
  let A ← (if reorder then A.orderTerms o else pure A)
  let B ← (if reorder then B.orderTerms o else pure B)
  if A.length ≠ B.length then pure (false, A)
  else pure ((List.zip A B).all (fun p => ¬ (‖p.1.1 - p.2.1‖ > 1e-10) ∧ p.1.2.beq p.2.2 = true), A)

/-- `num_qubits`, qubit_operator.cc:175-181 -/
def numQubits (A : QubitOperator) : ℕ := A.foldl (fun m t => max m t.2.numQubits) 0

end QubitOperator
end QF
