import Verif.Model.SQOperator
import Verif.Model.StatePrep
import Verif.Model.Measure

/-!
Model of sq_op_pool.cc / sq_op_pool.h.
-/
namespace QF

/-- `SQOpPool`, sq_op_pool.h:60-75.  A default-constructed object leaves the numbers uninitialised; the model takes zeros. -/
structure SQOpPool where
  refInt : ℕ := 0
  nSpinorb : ℕ := 0
  nOccAlpha : ℕ := 0
  nOccBeta : ℕ := 0
  nVirAlpha : ℕ := 0
  nVirBeta : ℕ := 0
  orbIrreps : List ℕ := []
  terms : List (ℂ × SQOperator) := []

namespace SQOpPool

/-- `add_term`, sq_op_pool.cc:15-17 -/
def addTerm (P : SQOpPool) (z : ℂ) (A : SQOperator) : SQOpPool := { P with terms := P.terms ++ [(z, A)] }

/-- `set_coeffs`, sq_op_pool.cc:19-26 -/
def setCoeffs (P : SQOpPool) (zs : List ℂ) : Except Exc SQOpPool :=
  if zs.length ≠ P.terms.length then .error .invalidArgument
  else .ok { P with terms := List.zipWith (fun z t => (z, t.2)) zs P.terms }

/-- one iteration of the loop computing `ref_int_`, sq_op_pool.cc:37-40: `multiplier` is an `int`, whose shift wraps at 32
bits; the product is converted to `uint64_t` and added modulo 2^64.  Occupations are 0 or 1. -/
def refStep (s : ℕ × ℤ) (occ : ℕ) : ℕ × ℤ := ((((s.1 : ℤ) + occ * s.2) % 2 ^ 64).toNat, (2 * s.2).bmod (2 ^ 32))

/-- one iteration of the counting loop, sq_op_pool.cc:55-64: (alpha?, occ alpha, occ beta, vir alpha, vir beta) -/
def countStep (s : Bool × ℕ × ℕ × ℕ × ℕ) (occ : ℕ) : Bool × ℕ × ℕ × ℕ × ℕ :=
  let (isAlpha, oa, ob, va, vb) := s
  if isAlpha then (!isAlpha, oa + occ, ob, va + (occ ^^^ 1), vb) else (!isAlpha, oa, ob + occ, va, vb + (occ ^^^ 1))

/-- `set_orb_spaces`, sq_op_pool.cc:32-71 -/
def setOrbSpaces (P : SQOpPool) (ref : List ℕ) (irreps : List ℕ := []) : Except Exc SQOpPool :=
  let refInt := (ref.foldl refStep (0, 1)).1
  if ref.length % 2 ≠ 0 then .error .invalidArgument
  else
    let c := ref.foldl countStep (true, 0, 0, 0, 0)
    .ok { P with refInt := refInt, nSpinorb := ref.length, nOccAlpha := c.2.1, nOccBeta := c.2.2.1, nVirAlpha := c.2.2.2.1,
                 nVirBeta := c.2.2.2.2, orbIrreps := if irreps = [] then List.replicate (ref.length / 2) 0 else irreps }

/-- `get_qubit_op_pool`, sq_op_pool.cc:73-81: also simplifies the operators of the pool itself -/
noncomputable def getQubitOpPool (o : SQOperator.DescSort) (P : SQOpPool) : Except Exc (QubitOpPool × SQOpPool) := do
  let r ← P.terms.mapM fun t => do
    let (Q, A) ← t.2.jwTransform o false
    return ((t.1, Q), (t.1, A))
  return (r.map Prod.fst, { P with terms := r.map Prod.snd })

/-- the first loop of `get_qubit_operator` with `order_type = "unique_lex"`, sq_op_pool.cc:88-92 -/
noncomputable def uniqueStep (o : SQOperator.DescSort) (qe : Bool) (parent : QubitOperator) (t : ℂ × SQOperator) : Except Exc QubitOperator := do
  let (child, _) ← t.2.jwTransform o qe
  let child := child.multCoeffs t.1
  return parent.addOp child

/-- the loop with `order_type = "commuting_grp_lex"`, sq_op_pool.cc:98-104 -/
noncomputable def groupStep (o : SQOperator.DescSort) (so : QubitOperator.SortOracle) (combine qe : Bool) (parent : QubitOperator)
    (t : ℂ × SQOperator) : Except Exc QubitOperator := do
  let (child, _) ← t.2.jwTransform o qe
  let child := child.multCoeffs t.1
  let child ← child.simplify combine
  let child ← child.orderTerms so
  return parent.addOp child

/-- `get_qubit_operator`, sq_op_pool.cc:83-109.  (That `jw_transform` also simplifies the pool's own operators is left out.) -/
noncomputable def getQubitOperator (o : SQOperator.DescSort) (so : QubitOperator.SortOracle) (P : SQOpPool) (orderType : String)
    (combine qe : Bool) : Except Exc QubitOperator := do
  if orderType = "unique_lex" then
    let parent ← P.terms.foldlM (uniqueStep o qe) []
    let parent ← parent.simplify
    parent.orderTerms so
  else if orderType = "commuting_grp_lex" then
    P.terms.foldlM (groupStep o so combine qe) []
  else .error .invalidArgument

/-! ### `fill_pool`, the particle-hole pools -/

/-- `std::bitset<64>(x).to_string().substr(64 - n)` for `n ≤ 64`: the bits of `x` below `n`, most significant first.
The characters `'0'` and `'1'` are `false` and `true`. -/
def bitStr (n x : ℕ) : List Bool := (List.range n).map fun i => x.testBit (n - 1 - i)

/-- `std::bitset<64>(s).to_ullong()` for a string of at most 64 characters -/
def ofBitStr (s : List Bool) : ℕ := s.foldl (fun v b => 2 * v + b.toNat) 0

/-- `std::next_permutation` on a string, as the C++ standard specifies it: the next permutation in lexicographic order, or
`none` (it returns false) if there is none. -/
structure NextPerm where
  next : List Bool → Option (List Bool)
  some_spec : ∀ l l', next l = some l' → l'.Perm l ∧ l < l' ∧ ∀ m, m.Perm l → l < m → l' ≤ m
  none_spec : ∀ l, next l = none → ∀ m, m.Perm l → m ≤ l

/-- the loop `do v.push_back(s); while (std::next_permutation(s.begin(), s.end()))`, sq_op_pool.cc:363-370 -/
def permsFrom (N : NextPerm) : ℕ → List Bool → Except Exc (List (List Bool))
  | 0, _ => .error .diverges
  | fuel + 1, s => match N.next s with
    | none => .ok [s]
    | some s' => do return s :: (← permsFrom N fuel s')

/-- splitting of the reference string, sq_op_pool.cc:348-357: characters at odd (alpha) and even (beta) positions -/
def splitAlpha (s : List Bool) : List Bool := ((List.range s.length).filter fun i => decide (i % 2 ≠ 0)).map fun i => s.getD i false
def splitBeta (s : List Bool) : List Bool := ((List.range s.length).filter fun i => decide (i % 2 = 0)).map fun i => s.getD i false

/-- `det_str`, sq_op_pool.cc:376-380.  The two strings have the same length. -/
def interleave (a b : List Bool) : List Bool := (List.range a.length).flatMap fun i => [b.getD i false, a.getD i false]

/-- the determinants, sorted, sq_op_pool.cc:373-387.  `std::sort` on integers has only one possible result. -/
def detsInt (A B : List (List Bool)) : List ℕ := (A.flatMap fun a => B.map fun b => ofBitStr (interleave a b)).mergeSort fun x y => decide (x ≤ y)

/-- positions of the changed orbitals that are occupied (`occ = true`) or empty in the reference, sq_op_pool.cc:403-414 -/
def excitIdx (n : ℕ) (excit ref : List Bool) (occ : Bool) : List ℕ :=
  ((List.range excit.length).filter fun i => excit.getD i false && (ref.getD i false == occ)).map fun i => n - i - 1

/-- one determinant, sq_op_pool.cc:390-431 -/
noncomputable def detStep (o : SQOperator.DescSort) (maxNbody : ℕ) (refStr : List Bool) (P : SQOpPool) (det : ℕ) : Except Exc SQOpPool := do
  let excitStr := bitStr P.nSpinorb (P.refInt ^^^ det)
  let nIdx := excitStr.countP id
  if nIdx % 2 ≠ 0 then .error .invalidArgument
  else
    let rank := nIdx / 2
    if rank ≠ 0 ∧ rank ≤ maxNbody then
      let occ := excitIdx P.nSpinorb excitStr refStr true
      let unocc := excitIdx P.nSpinorb excitStr refStr false
      let irrep ← findIrrep P.orbIrreps (occ ++ unocc)
      if irrep = 0 then
        let t := (SQOperator.addTerm [] 1 unocc occ).addTerm (-1) occ.reverse unocc.reverse
        let t ← t.simplify o
        return P.addTerm 1 t
      else return P
    else return P

/-- `max_nbody`, sq_op_pool.cc:327-343 -/
def maxNbody (poolType : String) : Option ℕ :=
  if poolType = "S" then some 1 else if poolType = "SD" then some 2 else if poolType = "SDT" then some 3
  else if poolType = "SDTQ" then some 4 else if poolType = "SDTQP" then some 5 else if poolType = "SDTQPH" then some 6 else none

/-- `fill_pool` for the pools S, SD, …, SDTQPH, sq_op_pool.cc:324-432 -/
noncomputable def fillParticleHole (N : NextPerm) (o : SQOperator.DescSort) (fuel : ℕ) (P : SQOpPool) (max : ℕ) : Except Exc SQOpPool := do
  if 64 < P.nSpinorb then .error .outOfRange
  else
    let refStr := bitStr P.nSpinorb P.refInt
    let A ← permsFrom N fuel (splitAlpha refStr)
    let B ← permsFrom N fuel (splitBeta refStr)
    (detsInt A B).foldlM (detStep o max refStr) P

end SQOpPool
end QF
