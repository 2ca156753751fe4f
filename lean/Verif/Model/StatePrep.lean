import Verif.Model.Circuit
import Verif.Model.Computer
import Verif.Model.QubitBasis

/-!
Model of `utils/state_prep.py`, `utils/qubit_tapering.py: taper_reference` and `find_irrep.cc`.

An occupation list is a Python list of non-negative `int`s: `List ℕ`.
-/
namespace QF

/-- `build_refprep(ref)`, state_prep.py:5-11 -/
noncomputable def buildRefprep (ref : List ℕ) : Except Exc Circuit :=
  ref.zipIdx.foldlM (fun c p => if p.1 ≠ 0 then do return c.addGate (← pyGate2 "X" p.2 p.2) else pure c) []

/-- `int(s, 2)` for a string of decimal digits: `ValueError` on the empty string and on a digit other than 0, 1 -/
def pyIntBase2 (s : List Char) : Except Exc ℕ :=
  if s = [] then .error .valueError
  else s.foldlM (fun v c => if c = '0' then pure (2 * v) else if c = '1' then pure (2 * v + 1) else .error .valueError) 0

/-- `ref_to_basis_idx(ref)`, state_prep.py:192-212: `int("".join(str(x) for x in reversed ref), 2)` -/
def refToBasisIdx (ref : List ℕ) : Except Exc ℕ := pyIntBase2 (ref.reverse.flatMap fun x => Nat.toDigits 10 x)

/-- `ref_string(ref, nqb)`, state_prep.py:14-19. `QubitBasis(n)` takes a `size_t`: a larger Python integer is a `TypeError`. -/
def refString (ref : List ℕ) (nqb : ℕ) : Except Exc String := do
  let i ← refToBasisIdx ref
  if i < 2 ^ 64 then pure ((QubitBasis.ofNat i).str nqb) else .error .typeError

/-- `integer_to_ref(n, nqubits)`, state_prep.py:22-50. `QubitBasis(n)` takes a `size_t`: a larger Python integer is a
`TypeError`; `get_bit(i)` shifts a 64-bit integer by `i`, which is undefined for `i ≥ 64`. -/
def integerToRef (n nqubits : ℕ) : Except Exc (List ℕ) :=
  if n < 2 ^ 64 then
    (List.range nqubits).foldlM (fun ref i =>
      if i < 64 then pure (if (QubitBasis.ofNat n).getBit i then ref ++ [1] else ref ++ [0]) else .error .undefinedBehaviour) []
  else .error .typeError

/-- the spin sum computed by `correct_spin` and `build_eq_dets`, state_prep.py:91-98 and 163-170.  The floating-point
sums of halves are exact (below 2^52 orbitals), so they are rational numbers here; indices are in range. -/
def spinSum (ref : List ℕ) : ℚ :=
  (List.range (ref.length / 2)).foldl (fun s i => s + (ref.getD (2 * i) 0 : ℚ) * (1 / 2) - (ref.getD (2 * i + 1) 0 : ℚ) * (1 / 2)) 0

/-- `correct_spin(ref, abs_spin)`, state_prep.py:75-104 -/
def correctSpin (ref : List ℕ) (absSpin : ℚ) : Bool := |spinSum ref| = absSpin

/-- `open_shell(ref)`, state_prep.py:53-72 -/
def openShell (ref : List ℕ) : Bool :=
  (List.range (ref.length / 2)).any fun i => ref.getD (2 * i) 0 + ref.getD (2 * i + 1) 0 == 1

/-- `flip_spin(ref, orb_idx)`, state_prep.py:107-140.  Simplification: every call made by `build_eq_dets` has
`2*orb_idx+1 < len(ref)`, so the `IndexError` of an out-of-range orbital is not modelled. -/
def flipSpin (ref : List ℕ) (o : ℕ) : List ℕ :=
  (ref.set (2 * o) (ref.getD (2 * o + 1) 0)).set (2 * o + 1) (ref.getD (2 * o) 0)

/-- the `for ref in eq_ref_lst1` loop of `build_eq_dets`, state_prep.py:176-182: a Python list iterator walks the
list by position while the body appends to it; `fuel` bounds the number of iterations, running out is `diverges`. -/
def eqDetsLoop (orbs : List ℕ) : ℕ → ℕ → List (List ℕ) → Except Exc (List (List ℕ))
  | 0, _, _ => .error .diverges
  | fuel + 1, i, L =>
    match L[i]? with
    | none => .ok L
    | some ref => eqDetsLoop orbs fuel (i + 1) (orbs.foldl (fun L o => if flipSpin ref o ∈ L then L else L ++ [flipSpin ref o]) L)

/-- the singly occupied orbitals collected by `build_eq_dets`, state_prep.py:163-173 -/
def oneEOrbs (ref : List ℕ) : List ℕ :=
  (List.range (ref.length / 2)).foldl (fun l i => if ref.getD (2 * i) 0 + ref.getD (2 * i + 1) 0 = 1 then l ++ [i] else l) []

/-- `build_eq_dets(open_shell_ref)`, state_prep.py:143-189 -/
def buildEqDets (fuel : ℕ) (ref : List ℕ) : Except Exc (List (List ℕ)) := do
  let absSpin := |spinSum ref|
  let L ← eqDetsLoop (oneEOrbs ref) fuel 0 [ref]
  pure (L.foldl (fun l r => if correctSpin r absSpin then l ++ [r] else l) [])

/-- `del l[i]` -/
def pyDel (l : List ℕ) (i : ℕ) : Except Exc (List ℕ) := if i < l.length then .ok (l.eraseIdx i) else .error .outOfRange

/-- `taper_reference(tapered_qubits, ref)`, qubit_tapering.py:473-497 (non-negative indices) -/
def taperReference (tapered ref : List ℕ) : Except Exc (List ℕ) := tapered.foldlM pyDel ref

/-- one iteration of `find_irrep`, find_irrep.cc:7-9; an index outside the vector is undefined behaviour -/
def irrepStep (orbIrreps : List ℕ) (irrep i : ℕ) : Except Exc ℕ :=
  match orbIrreps[i / 2]? with
  | some r => .ok (irrep ^^^ r)
  | none => .error .undefinedBehaviour

/-- `find_irrep`, find_irrep.cc:3-12; `size_t` XOR on natural numbers below 2^64 -/
def findIrrep (orbIrreps : List ℕ) (idx : List ℕ) : Except Exc ℕ := idx.foldlM (irrepStep orbIrreps) 0

end QF
