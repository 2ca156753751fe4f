import Verif.Model.QubitOperator

/-!
Model of `helper/io_helper.py` (`build_circuit`, `build_operator`).

Python strings are lists of characters.  Simplification: strings are ASCII (a Unicode digit or Unicode space is not
treated as one).
-/
namespace QF

/-- Python's `float(s)` and `complex(s)` on strings, which the code calls on the text of a parameter or coefficient. -/
structure PyNum where
  float : List Char → Except Exc ℝ
  complex : List Char → Except Exc ℂ

/-- the ASCII characters `str.split()` separates on -/
def isPySpace (c : Char) : Bool := c = ' ' || c = '\t' || c = '\n' || c = '\r' || c.toNat = 11 || c.toNat = 12 || (28 ≤ c.toNat && c.toNat ≤ 31)

/-- `s.split()` -/
def pySplit (s : List Char) : List (List Char) := (s.splitOnP isPySpace).filter (· ≠ [])

/-- `s.split(c)` for a one-character separator -/
def pySplitOn (c : Char) (s : List Char) : List (List Char) := s.splitOn c

/-- the digits of `int(s)`, read left to right: `ValueError` unless there is at least one and all are decimal digits -/
def pyDigits (s : List Char) : Except Exc ℕ :=
  if s ≠ [] ∧ s.all Char.isDigit then .ok (Nat.ofDigitChars 10 s 0) else .error .valueError

/-- `int(s)` passed to a `size_t` argument: an optional sign and decimal digits; a negative number is a `TypeError` of
the binding.  Simplification: there is no white space or underscore in `s` (`build_circuit` has split on both), and
numbers above 2^64 are not rejected. -/
def pySizeT : List Char → Except Exc ℕ
  | '+' :: s => pyDigits s
  | '-' :: s => do if (← pyDigits s) = 0 then .ok 0 else .error .typeError
  | s => pyDigits s

/-- `inputgate[i]` -/
def pyTok (l : List (List Char)) (i : ℕ) : Except Exc (List Char) :=
  match l[i]? with
  | some x => .ok x
  | none => .error .indexError

/-- the gate of one word, the loop body of `build_circuit`, io_helper.py:57-73 -/
noncomputable def gateOfWord (N : PyNum) (w : List Char) : Except Exc Gate := do
  let ig := pySplitOn '_' w
  if ig.length = 2 then
    let a ← pyTok ig 0
    let t ← pySizeT (← pyTok ig 1)
    let t' ← pySizeT (← pyTok ig 1)
    pyGate2 (String.ofList a) t t'
  else
    let a ← pyTok ig 0
    if 'R' ∈ a then
      let t ← pySizeT (← pyTok ig 1)
      let t' ← pySizeT (← pyTok ig 1)
      let θ ← N.float (← pyTok ig 2)
      pyGate3 (String.ofList a) t t' (θ : ℂ)
    else
      let t ← pySizeT (← pyTok ig 1)
      let c ← pySizeT (← pyTok ig 2)
      pyGate2 (String.ofList a) t c

/-- `build_circuit(Inputstr)`, io_helper.py:52-75 -/
noncomputable def buildCircuit (N : PyNum) (s : List Char) : Except Exc Circuit :=
  (pySplit s).foldlM (fun c w => do return c.addGate (← gateOfWord N w)) []

/-- `build_operator(Inputstr)`, io_helper.py:87-94 -/
noncomputable def buildOperator (N : PyNum) (s : List Char) : Except Exc QubitOperator :=
  (pySplitOn ';' s).foldlM (fun (A : QubitOperator) term => do
    let it := pySplitOn ',' term
    let z ← N.complex (← pyTok it 0)
    let c ← buildCircuit N (← pyTok it 1)
    return A.addTerm z c) []

end QF
