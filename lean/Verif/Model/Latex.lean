import Verif.Model.Circuit

/-!
Model of `utils/circuit_to_latex.py`: the quantikz drawing of a circuit.  The dictionaries `wires` and `gate_count` have the fixed key set
`qubit_ids`; they are functions here, and `order` is the order in which Python iterates over the set `qubit_ids` (for a set of integers it
need not be ascending, see C99).  Printing left out; after an exception the file is incomplete, which is not modelled.
-/
namespace QF
namespace Latex

/-- the entries of a wire, circuit_to_latex.py:104, 125, 133, 137, 156, 163-170, 176 -/
inductive Cell where
  | lstick (wire : ℕ)
  | ldots
  | gate (id : String)
  | qw
  | ctrl (diff : Option ℤ)
  | octrl (diff : ℤ)
  | targ
  deriving DecidableEq

/-- `wires`, `gate_count` (circuit_to_latex.py:91-96) and the figures written so far, each a list of rows from top to bottom -/
structure State where
  wires : ℕ → List Cell
  count : ℕ → ℕ
  figs : List (List (List Cell)) := []

/-- `wires[wire] += ...; gate_count[wire] += ...`, circuit_to_latex.py:137-138, 156-157, 163-172, 176-177 -/
def State.append (st : State) (w : ℕ) (cs : List Cell) : State :=
  { st with wires := Function.update st.wires w (st.wires w ++ cs), count := Function.update st.count w (st.count w + cs.length) }

/-- `wires` and `gate_count` at the start, circuit_to_latex.py:102-105 -/
def State.init : State := { wires := fun w => [.lstick w], count := fun _ => 0 }

/-- `max(gate_count.values())`, circuit_to_latex.py:112 and 181 -/
def State.depth (st : State) (order : List ℕ) : ℕ := (order.map st.count).foldr max 0

/-- the rows written for a figure of `n` columns, circuit_to_latex.py:123-129 and 183-190: the wires filled up with `\qw`, the last one of
the set on top, the first one at the bottom -/
def State.rows (st : State) (order : List ℕ) (n : ℕ) : List (List Cell) :=
  order.reverse.map fun w => st.wires w ++ List.replicate (n - st.count w) .qw

/-- begin a new figure if the gate would be added to a wire which is full, circuit_to_latex.py:112-134 -/
def State.split (order : List ℕ) (maxDepth : ℕ) (st : State) (g : Gate) : State :=
  if st.depth order = maxDepth ∧ (st.count g.target = maxDepth ∨ st.count g.control = maxDepth) then
    { wires := fun _ => [.ldots], count := fun _ => 0, figs := st.figs ++ [st.rows order maxDepth] }
  else st

/-- add a gate, circuit_to_latex.py:135-177 -/
def State.place (order : List ℕ) (st : State) (g : Gate) : Except Exc State :=
  if g.target = g.control then .ok (st.append g.target [.gate g.label])
  else
    let hi := max g.target g.control
    let lo := min g.target g.control
    let span := List.range' lo (hi + 1 - lo)
    if ¬ ∀ w ∈ span, w ∈ order then .error .keyError
    else
      let d := (span.map st.count).foldr max 0
      let st := span.foldl (fun st w => st.append w (List.replicate (d - st.count w) .qw)) st
      let diff : ℤ := (g.control : ℤ) - g.target
      if g.label ∉ ["cZ", "aCNOT", "acX", "CNOT", "cX"] then .error .valueError
      else
        let st := st.append g.target [if g.label = "cZ" then .ctrl none else .targ]
        let st := st.append g.control [if g.label ∈ ["aCNOT", "acX"] then .octrl diff else .ctrl (some diff)]
        .ok ((List.range' (lo + 1) (hi - (lo + 1))).foldl (fun st w => st.append w [.qw]) st)

/-- the figures written by `circuit_to_latex(circ, filename, max_circuit_depth_per_tikz)`, circuit_to_latex.py:4-193; `isinstance` checks left out.  `max()` of no values
raises a ValueError (a circuit without gates). -/
def figures (order : List ℕ) (maxDepth : ℤ) (circ : Circuit) : Except Exc (List (List (List Cell))) :=
  if maxDepth ≤ 0 then .error .valueError
  else do
    let st ← circ.foldlM (fun st g => (st.split order maxDepth.toNat g).place order g) State.init
    if order = [] then .error .valueError
    else
      let n := st.depth order
      pure (if n > 0 then st.figs ++ [st.rows order n] else st.figs)

/-- the text of an entry, circuit_to_latex.py:104, 125, 133, 137, 163-170 -/
def Cell.text : Cell → String
  | .lstick w => "            \\lstick{$\\ket{q_{" ++ toString w ++ "}}$}"
  | .ldots => "            \\ \\ldots \\ \\qw"
  | .gate id => " & \\gate{" ++ id ++ "}"
  | .qw => " & \\qw"
  | .ctrl none => " & \\ctrl{}"
  | .ctrl (some d) => " & \\ctrl{" ++ toString d ++ "}"
  | .octrl d => " & \\octrl{" ++ toString d ++ "}"
  | .targ => " & \\targ{}"

/-- the text of a figure, circuit_to_latex.py:68-77, 126-131 and 187-191 -/
def figureText (rows : List (List Cell)) : String :=
  "\n\\begin{tikzpicture}\n    \\node {\n        \\begin{quantikz}\n" ++
    String.intercalate " \\\\ \n" (rows.map fun r => String.join (r.map Cell.text)) ++ "\n" ++
    "        \\end{quantikz}\n    };\n\\end{tikzpicture}\n"

/-- the contents of the file, circuit_to_latex.py:61-66, 79-87 and 192 -/
def fileText (order : List ℕ) (maxDepth : ℤ) (circ : Circuit) : Except Exc String := do
  let figs ← figures order maxDepth circ
  pure ("\\documentclass[tikz]{standalone}\n\n\\usepackage{quantikz}\n\n\\begin{document}\n" ++ String.join (figs.map figureText) ++ "\n\\end{document}")

end Latex
end QF
