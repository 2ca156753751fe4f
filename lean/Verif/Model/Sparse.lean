import Verif.Model.ComputerOps

/-!
Model of `src/qforte/sparse_tensor.{h,cc}` and of the `sparse_matrix` members of `Gate`, `Circuit`,
`QubitOperator`, and of `Computer::apply_sparse_matrix`.

A `std::map<size_t, V>` is the list of its entries in increasing key order.
-/
namespace QF

/-- `std::map::operator[](k) = v` -/
def amSet {V : Type} (k : ℕ) (v : V) : List (ℕ × V) → List (ℕ × V)
  | [] => [(k, v)]
  | (k', v') :: m => if k < k' then (k, v) :: (k', v') :: m else if k = k' then (k, v) :: m else (k', v') :: amSet k v m

/-- `std::map::find` -/
def amGet {V : Type} : List (ℕ × V) → ℕ → Option V
  | [], _ => none
  | (k', v') :: m, k => if k = k' then some v' else amGet m k

/-- `std::map::erase(k)` -/
def amErase {V : Type} (m : List (ℕ × V)) (k : ℕ) : List (ℕ × V) := m.filter fun e => e.1 ≠ k

/-- `class SparseVector`, sparse_tensor.h:9-47 -/
abbrev SVec := List (ℕ × ℂ)

/-- `SparseVector::get_element`, sparse_tensor.cc:5-11 -/
def SVec.get (v : SVec) (I : ℕ) : ℂ := (amGet v I).getD 0

/-- `class SparseMatrix`, sparse_tensor.h:42-79 -/
abbrev SMat := List (ℕ × SVec)

namespace SMat

/-- the row `values_[I]`, default constructed (empty) if absent -/
def row (M : SMat) (I : ℕ) : SVec := (amGet M I).getD []

/-- `get_element`, sparse_tensor.cc:30-36 -/
def get (M : SMat) (I J : ℕ) : ℂ := SVec.get (M.row I) J

/-- `set_element`, sparse_tensor.cc:38-40 -/
def set (M : SMat) (I J : ℕ) (z : ℂ) : SMat := amSet I (amSet J z (M.row I)) M

/-- `temp[I].erase(J)`, sparse_tensor.cc:27, 100 -/
def erase (M : SMat) (I J : ℕ) : SMat := amSet I (amErase (M.row I) J) M

/-- `get_unique_js`, sparse_tensor.cc:52-63 -/
def uniqueJs (M : SMat) : List ℕ :=
  M.foldl (fun js i => i.2.foldl (fun js j => if j.1 ∈ js then js else js ++ [j.1]) js) []

open Classical in
/-- `left_multiply`, sparse_tensor.cc:65-87: `this = L * this` -/
noncomputable def leftMultiply (M L : SMat) : SMat :=
  let js := M.uniqueJs
  L.foldl (fun temp i => js.foldl (fun temp j =>
    let val := i.2.foldl (fun val k => val + k.2 * M.get k.1 j) 0
    if ‖val‖ > 1e-16 then temp.set i.1 j val else temp) temp) []

open Classical in
/-- `add`, sparse_tensor.cc:89-105: `this += factor * B` -/
noncomputable def add (M B : SMat) (factor : ℂ) : SMat :=
  B.foldl (fun temp i => i.2.foldl (fun temp j =>
    let val := factor * j.2 + M.get i.1 j.1
    if ‖val‖ > 1e-16 then temp.set i.1 j.1 val else temp.erase i.1 j.1) temp) M

/-- `make_identity`, sparse_tensor.cc:107-113 -/
noncomputable def identity (nbasis : ℕ) : SMat := (List.range nbasis).foldl (fun temp I => temp.set I I 1) []

end SMat

open Classical in
/-- the `set_element` calls of `Gate::sparse_matrix` in order, gate.cc:40-95 (row, column, value) -/
noncomputable def Gate.sparseWrites (g : Gate) (nbasis : ℕ) : List (ℕ × ℕ × ℂ) :=
  if g.target = g.control then
    [false, true].flatMap fun i => [false, true].flatMap fun j =>
      let op := g.mat (ix1 i) (ix1 j)
      if ‖op‖ > 1e-14 then
        ((List.range nbasis).filter fun I => I.testBit g.target == j).map fun I => (setBit I g.target i, I, op)
      else []
  else
    [(false, false), (false, true), (true, false), (true, true)].flatMap fun i =>
      [(false, false), (false, true), (true, false), (true, true)].flatMap fun j =>
        let op := g.mat (ix2 i.1 i.2) (ix2 j.1 j.2)
        if ‖op‖ > 1e-14 then
          ((List.range nbasis).filter fun I => I.testBit g.control == j.1 && I.testBit g.target == j.2).map fun I =>
            (setBit (setBit I g.target i.2) g.control i.1, I, op)
        else []

/-- `Gate::sparse_matrix`, gate.cc:29-97 -/
noncomputable def Gate.sparseMatrix (g : Gate) (nqubit : ℕ) : Except Exc SMat :=
  if g.target ≥ nqubit then .error .runtimeError
  else if g.control ≥ nqubit then .error .runtimeError
  else .ok ((g.sparseWrites (2 ^ nqubit)).foldl (fun M w => M.set w.1 w.2.1 w.2.2) [])

/-- `Circuit::sparse_matrix`, circuit.cc:201-217 -/
noncomputable def Circuit.sparseMatrix (c : Circuit) (nqubit : ℕ) : Except Exc SMat :=
  match c with
  | [] => .ok (SMat.identity (2 ^ nqubit))
  | g :: gs => do
    let R ← g.sparseMatrix nqubit
    gs.foldlM (fun R g => do
      let L ← g.sparseMatrix nqubit
      pure (R.leftMultiply L)) R

/-- `QubitOperator::sparse_matrix`, qubit_operator.cc:152-165 -/
noncomputable def QubitOperator.sparseMatrix (A : QubitOperator) (nqubit : ℕ) : Except Exc SMat :=
  if A.isEmpty then .ok (SMat.identity (2 ^ nqubit))
  else A.foldlM (fun R t => do
    let L ← t.2.sparseMatrix nqubit
    pure (R.add L t.1)) []

/-- `Computer::apply_sparse_matrix`, computer.cc:68-78 -/
noncomputable def Computer.applySparseMatrix (q : Computer) (M : SMat) : Except Exc Computer := do
  let res ← M.foldlM (fun res i => i.2.foldlM (fun res j => do
      let c ← rd q.coeff j.1
      let r ← rd res i.1
      wr res i.1 (r + j.2 * c)) res) (List.replicate q.nbasis (0 : ℂ))
  pure { q with coeff := res }

end QF
