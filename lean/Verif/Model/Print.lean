import Verif.Model.QubitOperator
import Verif.Model.SQOperator
import Verif.Model.Computer
import Verif.Model.QubitBasis

/-!
Model of the printed forms: `helpers.cc`, `Gate::str`, `Circuit::str`, `QubitOperator::str`, `SQOperator::str`, `Computer::str`,
`Gate::repr`, `QubitOpPool::str`, `SQOpPool::str`.
-/
namespace QF
namespace Print

abbrev Text := List Char

/-- `std::to_string` of a `size_t`, and `{}` of `fmt::format`: the decimal digits -/
def dec (n : ℕ) : Text := Nat.toDigits 10 n

/-- `join`, helpers.cc:5-15 -/
def join (sep : Text) : List Text → Text
  | [] => []
  | [s] => s
  | s :: l => s ++ sep ++ join sep l

/-- `to_string(complex)`, helpers.cc:17-25; `F x` is `fmt::format("{:+f}", x)` -/
noncomputable def complex (F : ℝ → Text) (z : ℂ) : Text := open Classical in
  if z.im = 0 then F z.re
  else if z.re = 0 then F z.im ++ ['j']
  else F z.re ++ (' ' :: F z.im) ++ ['i']

/-- `Gate::str()`, gate.cc:113-118 -/
def gate (g : Gate) : Text :=
  if g.target = g.control then g.label.toList ++ dec g.target else g.label.toList ++ dec g.target ++ ('_' :: dec g.control)

/-- `Circuit::str()`, circuit.cc:184-191 -/
def circuit (c : Circuit) : Text := '[' :: join [' '] (c.map gate).reverse ++ [']']

/-- `QubitOperator::str()`, qubit_operator.cc:167-173 -/
noncomputable def operator (F : ℝ → Text) (A : QubitOperator) : Text := join ['\n'] (A.map fun t => complex F t.1 ++ circuit t.2)

/-- `SQOperator::str()`, sq_operator.cc:171-186 -/
noncomputable def sqOperator (F : ℝ → Text) (A : SQOperator) : Text :=
  join [' '] ([] :: A.flatMap fun t => [complex F t.1, ['(']] ++ t.2.1.map (fun k => dec k ++ ['^']) ++ t.2.2.map dec ++ [[')', '\n']])

/-- `Computer::str()`, computer.cc:956-966; `thr` is `print_threshold` of the constructor.  `basis_[i]` is the basis state with the index `i`, as long as it fits into
the 64 bits of `QubitBasis` (computer.cc:28-38). -/
noncomputable def computer (F : ℝ → Text) (thr : ℝ) (q : Computer) : Text := open Classical in
  join ['\n'] ([("Computer(").toList] ++
    ((List.range q.nbasis).filter fun i => decide (thr ≤ ‖q.coeff.getD i 0‖)).map (fun i => complex F (q.coeff.getD i 0) ++ (' ' :: (QubitBasis.str ⟨BitVec.ofNat 64 i⟩ q.nqubit).toList)) ++
    [(")").toList])

/-- one matrix entry of `Gate::repr()`, gate.cc:126: `"  {:+f} {:+f} i"` -/
def reprEntry (F : ℝ → Text) (z : ℂ) : Text := ' ' :: ' ' :: F z.re ++ (' ' :: F z.im) ++ [' ', 'i']

/-- `index1` or `index2`, gate.cc:9-10 and 123 -/
def reprIndex (g : Gate) : List (Fin 4) := if g.target = g.control then [0, 1] else [0, 1, 2, 3]

/-- `Gate::repr()`, gate.cc:120-131 (the misspelt word is the code's) -/
def gateRepr (F : ℝ → Text) (g : Gate) : Text :=
  g.label.toList ++ " gate, target qubit:".toList ++ dec g.target ++ ", contol qubit:".toList ++ dec g.control ++ ['\n'] ++
    (reprIndex g).flatMap fun i => ((reprIndex g).flatMap fun j => reprEntry F (g.mat i j)) ++ ['\n']

/-- `QubitOpPool::str()`, qubit_op_pool.cc:177-193 (the counter is an `int`: the model has no overflow at 2^31 terms) -/
noncomputable def qubitPool (F : ℝ → Text) (P : List (ℂ × QubitOperator)) : Text :=
  join [' '] ([] :: P.zipIdx.flatMap fun t => ["----->".toList, dec t.2, "<-----\n".toList, complex F t.1.1, "[\n".toList, operator F t.1.2, ['\n'], "]\n\n".toList])

/-- `SQOpPool::str()`, sq_op_pool.cc:580-595 -/
noncomputable def sqPool (F : ℝ → Text) (P : List (ℂ × SQOperator)) : Text :=
  join [' '] ([] :: P.zipIdx.flatMap fun t => ["----->".toList, dec t.2, "<-----\n".toList, complex F t.1.1, "[\n".toList, sqOperator F t.1.2, "]\n\n".toList])

end Print
end QF
