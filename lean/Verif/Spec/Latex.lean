import Verif.Model.Latex

/-!
How a quantikz figure is read: a row per wire; column by column, a gate box is a one-qubit gate of its wire, a (filled or open) control with
the number `d` is joined with the symbol `d` rows below it.
-/
namespace QF
namespace Latex

/-- what a reader of a drawing sees of a gate: its name, target and control -/
abbrev Label := String × ℕ × ℕ

/-- `cX` is another name of `CNOT`, `acX` another name of `aCNOT` -/
def canonName (s : String) : String := if s = "cX" then "CNOT" else if s = "acX" then "aCNOT" else s

/-- what is drawn of a gate -/
def label (g : Gate) : Label := (if g.target = g.control then g.label else canonName g.label, g.target, g.control)

/-- the entry `d` rows below row `r` of a column -/
def below (col : ℕ → Option Cell) (r : ℕ) (d : ℤ) : Option Cell := if 0 ≤ (r : ℤ) + d then col ((r : ℤ) + d).toNat else none

/-- the gate whose box or control is in row `r` of the column; `names` are the qubits of the rows -/
def readCell (names : List ℕ) (col : ℕ → Option Cell) (r : ℕ) : Option Label :=
  match col r with
  | some (.gate s) => some (s, names.getD r 0, names.getD r 0)
  | some (.ctrl (some d)) =>
    match below col r d with
    | some .targ => some ("CNOT", names.getD ((r : ℤ) + d).toNat 0, names.getD r 0)
    | some (.ctrl none) => some ("cZ", names.getD ((r : ℤ) + d).toNat 0, names.getD r 0)
    | _ => none
  | some (.octrl d) =>
    match below col r d with
    | some .targ => some ("aCNOT", names.getD ((r : ℤ) + d).toNat 0, names.getD r 0)
    | _ => none
  | _ => none

/-- the gates of a figure, column by column, each column from top to bottom; the first entry of a row is its caption -/
def readFigure (names : List ℕ) (F : List (List Cell)) : List Label :=
  (List.range ((F.headD []).length - 1)).flatMap fun k => (List.range F.length).filterMap (readCell names fun i => (F[i]?).bind (·[k + 1]?))

/-- a figure with `rows` rows and `n` columns, not counting the captions -/
def HasShape (rows n : ℕ) (F : List (List Cell)) : Prop := F.length = rows ∧ ∀ r ∈ F, r.length = n + 1

/-- `order` lists the qubits of the circuit -/
def UsedQubits (C : Circuit) (order : List ℕ) : Prop := order.Nodup ∧ ∀ q, q ∈ order ↔ ∃ g ∈ C, q = g.target ∨ q = g.control

/-- the gates `circuit_to_latex` draws: one-qubit gates, and `CNOT`, `aCNOT` and `cZ` if every qubit in between is used in the circuit -/
def Drawable (order : List ℕ) (g : Gate) : Prop :=
  g.target = g.control ∨ (g.label ∈ ["cZ", "aCNOT", "acX", "CNOT", "cX"] ∧ ∀ w, min g.target g.control ≤ w → w ≤ max g.target g.control → w ∈ order)

end Latex
end QF
