import Mathlib.Data.Nat.Notation

/-!
What the text of a circuit says: words separated by white space, each word
`[action]_[target]`, `[action]_[target]_[control]`, `[action]_[target]_[parameter]` or
`[action]_[target]_[control]_[parameter]` (io_helper.py:45-50).  Independent of the model.
-/
namespace QF.Text

/-- a blank -/
def Blank (c : Char) : Prop := c = ' ' ∨ c = '\t' ∨ c = '\n'

/-- `Layout ws s`: the text `s` consists of the words `ws`, in this order, separated by one or more blanks, with any
number of blanks before the first and after the last word -/
inductive Layout : List (List Char) → List Char → Prop
  | blank {s : List Char} : (∀ c ∈ s, Blank c) → Layout [] s
  | word {lead w s : List Char} {ws : List (List Char)} : (∀ c ∈ lead, Blank c) → w ≠ [] → Layout ws s →
      (ws = [] ∨ ∃ c s', s = c :: s' ∧ Blank c) → Layout (w :: ws) (lead ++ w ++ s)

/-- the decimal numeral of `n` -/
def num (n : ℕ) : List Char := Nat.toDigits 10 n

/-- a gate as described in the documentation of `build_circuit` -/
inductive GateText
  /-- `[action]_[target]` -/
  | one (action : String) (target : ℕ)
  /-- `[action]_[target]_[control]` -/
  | two (action : String) (target control : ℕ)
  /-- `[action]_[target]_[parameter]` -/
  | rot (action : String) (target : ℕ) (parameter : List Char)
  /-- `[action]_[target]_[control]_[parameter]` -/
  | crot (action : String) (target control : ℕ) (parameter : List Char)

/-- how the gate is written -/
def GateText.word : GateText → List Char
  | .one a t => a.toList ++ ['_'] ++ num t
  | .two a t c => a.toList ++ ['_'] ++ num t ++ ['_'] ++ num c
  | .rot a t p => a.toList ++ ['_'] ++ num t ++ ['_'] ++ p
  | .crot a t c p => a.toList ++ ['_'] ++ num t ++ ['_'] ++ num c ++ ['_'] ++ p

end QF.Text
