import Verif.Model.QubitOperator
import Mathlib.Data.List.Sort

/-!
Model of `utils/transforms.py`: operator "organizers" (nested python lists).

An organizer `[[coeff, [("X", i), ("Z", j), ...]], ...]` is a list of pairs; letters are python strings and qubit
indices are non-negative.
-/
namespace QF

abbrev PyLetter := String × ℕ
abbrev PyWord := List PyLetter
abbrev Organizer := List (ℂ × PyWord)

namespace Organizer

/-- the loop body of `fermop_to_sq_excitation` over one tuple, transforms.py:23-44: position, number of annihilators and
creators so far, and the collected indices.  `half` is `int(num_ops / 2)`. -/
def fermopLoop (half : ℕ) : List (ℕ × Bool) → (i an cr : ℕ) → List ℕ → Except Exc (ℕ × ℕ × List ℕ)
  | [], _, an, cr, lst => .ok (an, cr, lst)
  | (p, c) :: r, i, an, cr, lst =>
    if i < half ∧ an > 0 then .error .valueError
    else if i ≥ half ∧ an > half then .error .valueError
    else if c then fermopLoop half r (i + 1) an (cr + 1) (lst ++ [p])
    else fermopLoop half r (i + 1) (an + 1) cr (lst ++ [p])

/-- `fermop_to_sq_excitation`, transforms.py:13-52.  The action of an operator is its truth value (`True` creates). -/
def fermopToSqExcitation : List (List (ℕ × Bool) × ℂ) → Except Exc (List (List ℕ × ℂ))
  | [] => .ok []
  | (tup, z) :: r =>
    if tup.length % 2 ≠ 0 then .error .valueError
    else do
      let (an, cr, lst) ← fermopLoop (tup.length / 2) tup 0 0 0 []
      if an ≠ cr then .error .valueError
      else do
        let rest ← fermopToSqExcitation r
        pure ((lst, z) :: rest)

/-- the inner loop of `organizer_to_circuit`, transforms.py:72-74 -/
noncomputable def wordCircuit (w : PyWord) : Except Exc Circuit :=
  w.foldlM (fun circ l => do let g ← pyGate2 l.1 l.2 l.2; pure (circ.addGate g)) []

/-- `organizer_to_circuit`, transforms.py:56-79 -/
noncomputable def toCircuit (org : Organizer) : Except Exc QubitOperator :=
  org.foldlM (fun op t => do let circ ← wordCircuit t.2; pure (op.addTerm t.1 circ)) []

/-- `circuit_to_organizer`, transforms.py:83-108 -/
def ofCircuit (op : QubitOperator) : Organizer := op.map fun t => (t.1, t.2.map fun g => (g.label, g.target))

/-- the `contractions` dictionary of `pauli_condense`, transforms.py:281-294; a missing key raises `KeyError` -/
noncomputable def contraction (a b : String) : Except Exc (ℂ × String) :=
  if a = "X" ∧ b = "Y" then .ok (Complex.I, "Z")
  else if a = "X" ∧ b = "Z" then .ok (-Complex.I, "Y")
  else if a = "Y" ∧ b = "X" then .ok (-Complex.I, "Z")
  else if a = "Y" ∧ b = "Z" then .ok (Complex.I, "X")
  else if a = "Z" ∧ b = "X" then .ok (Complex.I, "Y")
  else if a = "Z" ∧ b = "Y" then .ok (-Complex.I, "X")
  else if a = "X" ∧ b = "X" then .ok (1, "I")
  else if a = "Y" ∧ b = "Y" then .ok (1, "I")
  else if a = "Z" ∧ b = "Z" then .ok (1, "I")
  else if a = "I" ∧ b = "X" then .ok (1, "X")
  else if a = "I" ∧ b = "Y" then .ok (1, "Y")
  else if a = "I" ∧ b = "Z" then .ok (1, "Z")
  else .error .keyError

/-- the `while idx3` loop, transforms.py:322-330: multiplies the coefficient by the contraction of every adjacent pair and
collects the resulting letters (`condensed_temp_list`) -/
noncomputable def contractPairs : List PyLetter → ℂ → List String → Except Exc (ℂ × List String)
  | a :: b :: r, z, acc => do
    let (c, s) ← contraction a.1 b.1
    contractPairs (b :: r) (z * c) (acc ++ [s])
  | _, z, acc => .ok (z, acc)

/-- the body of the `while idx1` loop for the letters `temp_list` found on one qubit, transforms.py:317-336: only the first
contracted letter is kept -/
noncomputable def condenseGroup (q : ℕ) (tempList : List PyLetter) (z : ℂ) (out : PyWord) : Except Exc (ℂ × PyWord) :=
  if tempList.length = 1 then .ok (z, out ++ tempList)
  else do
    let (z, letters) ← contractPairs tempList z []
    match letters with
    | [] => .error .indexError
    | l :: _ => pure (z, if l ≠ "I" then out ++ [(l, q)] else out)

/-- the `while idx1` loop, transforms.py:306-336 -/
noncomputable def condenseLoop : PyWord → ℂ → PyWord → Except Exc (ℂ × PyWord)
  | [], z, out => .ok (z, out)
  | l :: word, z, out => do
    let (z, out) ← condenseGroup l.2 (l :: word.takeWhile fun m => m.2 = l.2) z out
    condenseLoop (word.dropWhile fun m => m.2 = l.2) z out
  termination_by w => w.length
  decreasing_by
    simp only [List.length_cons]
    have := (List.dropWhile_sublist (fun m : PyLetter => decide (m.2 = l.2)) (l := word)).length_le
    omega

/-- `pauli_condense`, transforms.py:279-340; `sorted` with a key is a stable sort -/
noncomputable def condense (op : Organizer) : Except Exc Organizer :=
  op.mapM fun t => condenseLoop (t.2.insertionSort fun a b => a.2 ≤ b.2) t.1 []

/-- python's `dict`: `term_coeff_dict[w] += c`, or insertion at the end, transforms.py:156-160 -/
noncomputable def dictAdd : Organizer → PyWord → ℂ → Organizer
  | [], w, c => [(c, w)]
  | (d, v) :: r, w, c => if v = w then (d + c, v) :: r else (d, v) :: dictAdd r w c

open Classical in
/-- `combine_like_terms`, transforms.py:149-166 -/
noncomputable def combineLikeTerms (ops : List Organizer) : Organizer :=
  ((ops.flatten).foldl (fun d t => dictAdd d t.2 t.1) []).filter fun t => decide (‖t.1‖ > 1e-10)

/-- `join_lr_organizers`, transforms.py:257-276 -/
noncomputable def joinLR (current : Organizer) (x y : ℂ × PyWord) : Except Exc Organizer :=
  condense (if current = [] then [x, y] else
    current.flatMap fun t => [(t.1 * x.1, t.2 ++ x.2), (t.1 * y.1, t.2 ++ y.2)])

/-- the loop of `get_single_term_jw_organizer`, transforms.py:184-204; `i` is the position -/
noncomputable def jwLoop (nCreators : ℕ) : List ℕ → (i : ℕ) → Organizer → Except Exc Organizer
  | [], _, org => .ok org
  | p :: r, i, org => do
    let zs : PyWord := (List.range p).map fun j => ("Z", j)
    let org ← joinLR org (0.5, zs ++ [("X", p)]) (if i < nCreators then -(0.5 * Complex.I) else 0.5 * Complex.I, zs ++ [("Y", p)])
    jwLoop nCreators r (i + 1) org

/-- `get_single_term_jw_organizer`, transforms.py:169-209 -/
noncomputable def singleTermJW (sqTerm : List ℕ × ℂ) : Except Exc Organizer :=
  if sqTerm.1.length = 0 then .ok [(sqTerm.2, [])]
  else do
    let org ← jwLoop (sqTerm.1.length / 2) sqTerm.1 0 []
    pure (org.map fun t => (t.1 * sqTerm.2, t.2))

/-- `get_jw_organizer` with `combine=True`, transforms.py:138-146.  (With `combine=False` the python function returns a list
of organizers instead of an organizer; not modelled.) -/
noncomputable def jw (sq : List (List ℕ × ℂ)) : Except Exc Organizer := do
  let orgs ← sq.mapM singleTermJW
  pure (combineLikeTerms orgs)

/-- `get_ucc_jw_organizer`, transforms.py:111-135 -/
noncomputable def uccJW (sq : List (List ℕ × ℂ)) (alreadyAntiHerm : Bool) : Except Exc Organizer := do
  let orgs ← (if alreadyAntiHerm then sq else sq.flatMap fun t => [(t.1, t.2), (t.1.reverse, -1 * t.2)]).mapM singleTermJW
  pure (combineLikeTerms orgs)

/-- `join_organizers`, transforms.py:212-220 -/
noncomputable def join (L R : Organizer) : Except Exc Organizer := do
  let c ← condense (L.flatMap fun l => R.map fun r => (l.1 * r.1, l.2 ++ r.2))
  pure (combineLikeTerms [c])

/-- `join_H_Am_organizers`, transforms.py:235-254 -/
noncomputable def joinHAm (H A : Organizer) : Except Exc Organizer := do
  let c ← condense (H.flatMap fun l => A.flatMap fun r => [(l.1 * r.1, l.2 ++ r.2), (-(l.1 * r.1), r.2 ++ l.2)])
  pure (combineLikeTerms [c])

end Organizer
end QF
