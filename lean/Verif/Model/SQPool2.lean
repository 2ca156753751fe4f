import Verif.Model.SQPool

/-!
Model of `SQOpPool::fill_pool` for the pools GSD and sa_SD, and of its dispatch on the name of the pool, sq_op_pool.cc:111-578.
-/
namespace QF
namespace SQOpPool

/-! ### GSD, sq_op_pool.cc:112-320 -/

/-- one generalised single excitation `{q} <- {p}`, sq_op_pool.cc:124-131 (alpha) and 134-142 (beta) -/
noncomputable def gsdSingle (o : SQOperator.DescSort) (q p : ℕ) (P : SQOpPool) : Except Exc SQOpPool := do
  if q ≠ p then
    let t ← ((SQOperator.addTerm [] 1 [q] [p]).addTerm (-1) [p] [q]).simplify o
    if t.length > 0 then return P.addTerm 1 t else return P
  else return P

/-- the body of the loop over `i` and `a`, sq_op_pool.cc:114-144 -/
noncomputable def gsdSingles (o : SQOperator.DescSort) (P : SQOpPool) (x : ℕ × ℕ) : Except Exc SQOpPool := do
  let (i, a) := x
  let irrep ← findIrrep P.orbIrreps [2 * i, 2 * a]
  if irrep = 0 then
    let P ← gsdSingle o (2 * a) (2 * i) P
    gsdSingle o (2 * a + 1) (2 * i + 1) P
  else return P

/-- the pool, `uniqe_2bdy` and `adjnt_2bdy` -/
abbrev GsdState := SQOpPool × List (List ℕ) × List (List ℕ)

/-- `{get<1>(terms()[m])[0], get<1>(terms()[m])[1], get<2>(terms()[m])[0], get<2>(terms()[m])[1]}`; an access outside a
vector is undefined behaviour -/
def fourIdx (T : SQOperator) (m : ℕ) : Except Exc (List ℕ) :=
  match T[m]? with
  | some (_, c0 :: c1 :: _, a0 :: a1 :: _) => .ok [c0, c1, a0, a1]
  | _ => .error .undefinedBehaviour

/-- one of the six spin cases, sq_op_pool.cc:164-188 and its five copies: create `c0 c1`, annihilate `a0 a1` -/
noncomputable def gsdDouble (o : SQOperator.DescSort) (c0 c1 a0 a1 : ℕ) (s : GsdState) : Except Exc GsdState := do
  if c0 ≠ c1 ∧ a0 ≠ a1 then
    let t ← ((SQOperator.addTerm [] 1 [c0, c1] [a0, a1]).addTerm (-1) [a1, a0] [c1, c0]).simplify o
    if t.length > 0 then
      let vtemp ← fourIdx t 0
      let vadjt ← fourIdx t 1
      if vtemp ∉ s.2.1 then
        if vtemp ∉ s.2.2 then return (s.1.addTerm 1 t, s.2.1 ++ [vtemp], s.2.2 ++ [vadjt])
        else return s
      else return s
    else return s
  else return s

/-- the six spin cases of spatial orbitals `i, j, a, b`, sq_op_pool.cc:164-314: aaaa, bbbb, abab, baba, abba, baab -/
def gsdCases (i j a b : ℕ) : List (ℕ × ℕ × ℕ × ℕ) :=
  let (ia, ib, ja, jb, aa, ab, ba, bb) := (2 * i, 2 * i + 1, 2 * j, 2 * j + 1, 2 * a, 2 * a + 1, 2 * b, 2 * b + 1)
  [(aa, ba, ia, ja), (ab, bb, ib, jb), (aa, bb, ia, jb), (ab, ba, ib, ja), (aa, bb, ib, ja), (ab, ba, ia, jb)]

/-- the body of the loops over `i ≤ j` and `a ≤ b`, sq_op_pool.cc:149-316 -/
noncomputable def gsdDoubles (o : SQOperator.DescSort) (s : GsdState) (x : ℕ × ℕ × ℕ × ℕ) : Except Exc GsdState := do
  let (i, j, a, b) := x
  let irrep ← findIrrep s.1.orbIrreps [2 * i, 2 * j, 2 * a, 2 * b]
  if irrep = 0 then
    (gsdCases i j a b).foldlM (fun s y => gsdDouble o y.1 y.2.1 y.2.2.1 y.2.2.2 s) s
  else return s

/-- `for (size_t j = i; j < m; j++)` -/
def upFrom (i m : ℕ) : List ℕ := (List.range (m - i)).map (i + ·)

/-- the loop nest of the singles: `i` from 0, `a` from `i` -/
def gsdPairs (m : ℕ) : List (ℕ × ℕ) := (List.range m).flatMap fun i => (upFrom i m).map fun a => (i, a)

/-- the loop nest of the doubles -/
def gsdQuads (m m' : ℕ) : List (ℕ × ℕ × ℕ × ℕ) :=
  (List.range m).flatMap fun i => (upFrom i m).flatMap fun j => (List.range m').flatMap fun a => (upFrom a m').map fun b => (i, j, a, b)

/-- `fill_pool("GSD")`, sq_op_pool.cc:112-320 -/
noncomputable def fillGSD (o : SQOperator.DescSort) (P : SQOpPool) : Except Exc SQOpPool := do
  let norb := P.nSpinorb / 2
  let P ← (gsdPairs norb).foldlM (gsdSingles o) P
  let s ← (gsdQuads norb norb).foldlM (gsdDoubles o) (P, [], [])
  return s.1

/-! ### sa_SD, sq_op_pool.cc:433-574 -/

/-- the singles of sa_SD, sq_op_pool.cc:440-461 -/
noncomputable def saSingles (o : SQOperator.DescSort) (nocc : ℕ) (P : SQOpPool) (x : ℕ × ℕ) : Except Exc SQOpPool := do
  let (i, a) := x
  let (ia, ib, aa, ab) := (2 * i, 2 * i + 1, 2 * nocc + 2 * a, 2 * nocc + 2 * a + 1)
  let irrep ← findIrrep P.orbIrreps [ia, aa]
  if irrep = 0 then
    let w : ℂ := ((1 / Real.sqrt 2 : ℝ) : ℂ)
    let t := (((SQOperator.addTerm [] w [aa] [ia]).addTerm w [ab] [ib]).addTerm (-w) [ia] [aa]).addTerm (-w) [ib] [ab]
    let t ← t.simplify o
    return P.addTerm 1 t
  else return P

/-- `if ((c0 != c1) && (a0 != a1)) temp.add_term(z, {c0, c1}, {a0, a1})` -/
noncomputable def guardTerm (z : ℂ) (c0 c1 a0 a1 : ℕ) (t : SQOperator) : SQOperator := if c0 ≠ c1 ∧ a0 ≠ a1 then t.addTerm z [c0, c1] [a0, a1] else t

/-- `temp2a`, sq_op_pool.cc:482-520, before `simplify` -/
noncomputable def saTriplet (ia ib ja jb aa ab ba bb : ℕ) : SQOperator :=
  let w : ℂ := ((1 / Real.sqrt 12 : ℝ) : ℂ)
  let t := guardTerm (2 * w) aa ba ia ja []
  let t := guardTerm (2 * w) ab bb ib jb t
  let t := guardTerm w aa bb ia jb t
  let t := guardTerm w ab ba ib ja t
  let t := guardTerm w aa bb ib ja t
  let t := guardTerm w ab ba ia jb t
  let t := guardTerm (-(2 * w)) ja ia ba aa t
  let t := guardTerm (-(2 * w)) jb ib bb ab t
  let t := guardTerm (-w) jb ia bb aa t
  let t := guardTerm (-w) ja ib ba ab t
  let t := guardTerm (-w) ja ib bb aa t
  guardTerm (-w) jb ia ba ab t

/-- `temp2b`, sq_op_pool.cc:522-548, before `simplify` -/
noncomputable def saSinglet (ia ib ja jb aa ab ba bb : ℕ) : SQOperator :=
  let w : ℂ := 1 / 2
  let t := guardTerm w aa bb ia jb []
  let t := guardTerm w ab ba ib ja t
  let t := guardTerm (-w) aa bb ib ja t
  let t := guardTerm (-w) ab ba ia jb t
  let t := guardTerm (-w) jb ia bb aa t
  let t := guardTerm (-w) ja ib ba ab t
  let t := guardTerm w ja ib bb aa t
  guardTerm w jb ia ba ab t

/-- the normalisation, sq_op_pool.cc:553-562: `Σ |z|²`, then all coefficients times `sqrt(2 / Σ |z|²)`.  For an operator
without terms the C++ code divides by zero and multiplies no coefficient; the model's quotient is then 0. -/
noncomputable def saNormalise (t : SQOperator) : SQOperator := t.multCoeffs ((Real.sqrt (2 / (t.map fun x => ‖x.1‖ ^ 2).sum) : ℝ) : ℂ)

/-- the doubles of sa_SD, sq_op_pool.cc:464-573 -/
noncomputable def saDoubles (o : SQOperator.DescSort) (nocc : ℕ) (P : SQOpPool) (x : ℕ × ℕ × ℕ × ℕ) : Except Exc SQOpPool := do
  let (i, j, a, b) := x
  let (ia, ib, ja, jb) := (2 * i, 2 * i + 1, 2 * j, 2 * j + 1)
  let (aa, ab, ba, bb) := (2 * nocc + 2 * a, 2 * nocc + 2 * a + 1, 2 * nocc + 2 * b, 2 * nocc + 2 * b + 1)
  let irrep ← findIrrep P.orbIrreps [ia, ja, aa, ba]
  if irrep = 0 then
    let ta ← (saTriplet ia ib ja jb aa ab ba bb).simplify o
    let tb ← (saSinglet ia ib ja jb aa ab ba bb).simplify o
    let ta := saNormalise ta
    let tb := saNormalise tb
    let P := if ta.length > 0 then P.addTerm 1 ta else P
    return if tb.length > 0 then P.addTerm 1 tb else P
  else return P

/-- `fill_pool("sa_SD")`, sq_op_pool.cc:433-574 -/
noncomputable def fillSaSD (o : SQOperator.DescSort) (P : SQOpPool) : Except Exc SQOpPool := do
  if P.nOccAlpha ≠ P.nOccBeta then .error .invalidArgument
  else
    let nocc := P.nOccAlpha
    let nvir := P.nVirAlpha
    let P ← ((List.range nocc).flatMap fun i => (List.range nvir).map fun a => (i, a)).foldlM (saSingles o nocc) P
    (gsdQuads nocc nvir).foldlM (saDoubles o nocc) P

/-- `fill_pool`, sq_op_pool.cc:111-578 -/
noncomputable def fillPool (N : NextPerm) (o : SQOperator.DescSort) (fuel : ℕ) (P : SQOpPool) (poolType : String) : Except Exc SQOpPool :=
  if poolType = "GSD" then fillGSD o P
  else match maxNbody poolType with
    | some m => fillParticleHole N o fuel P m
    | none => if poolType = "sa_SD" then fillSaSD o P else .error .invalidArgument

end SQOpPool
end QF
