import Verif.Model.QubitOperator
import Verif.Model.SQOperator
import Mathlib.Data.ZMod.Basic

/-!
Model of `utils/qubit_tapering.py`.

The `uint8` arrays of that module only ever hold 0 and 1; they are modelled by a shape and a function to `ZMod 2`
(`np.bitwise_xor` is addition).  The one place where other `uint8` values occur is the matrix product in
`find_commutation_matrix`, which is modelled with its wrap-around.
-/
namespace QF

/-- a binary numpy matrix: `shape == (rows, cols)`, entries `e i j` for `i < rows`, `j < cols` -/
structure BMat where
  rows : ℕ
  cols : ℕ
  e : ℕ → ℕ → ZMod 2

namespace Taper

/-- `M[i, j] = 1` -/
def setOne (M : ℕ → ℕ → ZMod 2) (i j : ℕ) : ℕ → ℕ → ZMod 2 := fun a b => if a = i ∧ b = j then 1 else M a b

/-- the body of the loop over gates in `construct_parity_check_matrix`, qubit_tapering.py:145-150 -/
def parityGate (n i : ℕ) (M : ℕ → ℕ → ZMod 2) (g : Gate) : ℕ → ℕ → ZMod 2 :=
  let M := if g.label = "Y" ∨ g.label = "Z" then setOne M i (n - g.target - 1) else M
  if g.label = "X" ∨ g.label = "Y" then setOne M i (2 * n - g.target - 1) else M

/-- `construct_parity_check_matrix`, qubit_tapering.py:117-152, for `n_qubits` larger than every target and
`n_strings` the number of terms, as it is called by `find_Z2_symmetries` -/
def parityCheck (n : ℕ) (H : QubitOperator) : BMat :=
  { rows := H.length, cols := 2 * n,
    e := (H.zipIdx).foldl (fun M t => t.1.2.foldl (parityGate n t.2) M) (fun _ _ => 0) }

/-- swap two columns, qubit_tapering.py:195-197 -/
def swapCols (M : ℕ → ℕ → ZMod 2) (c d : ℕ) : ℕ → ℕ → ZMod 2 := fun i j => if j = c then M i d else if j = d then M i c else M i j

/-- column `c` becomes column `c` xor column `idx`, qubit_tapering.py:200-203 -/
def xorCol (M : ℕ → ℕ → ZMod 2) (idx c : ℕ) : ℕ → ℕ → ZMod 2 := fun i j => if j = c then M i idx + M i c else M i j

/-- the body of the loop over rows, qubit_tapering.py:190-205; `N` is the number of columns -/
def kernelStep (N : ℕ) (s : (ℕ → ℕ → ZMod 2) × ℕ) (row : ℕ) : (ℕ → ℕ → ZMod 2) × ℕ :=
  match (List.range (N - s.2)).filter (fun k => s.1 row (s.2 + k) ≠ 0) with
  | [] => s
  | k :: rest => (rest.foldl (fun M k => xorCol M s.2 (k + s.2)) (swapCols s.1 (k + s.2) s.2), s.2 + 1)

/-- `find_parity_check_matrix_kernel`, qubit_tapering.py:155-219, with `n_strings` and `n_qubits` the shape of the matrix -/
def kernel (E : BMat) : BMat :=
  let aug : ℕ → ℕ → ZMod 2 := fun i j => if i < E.rows then E.e i j else if i - E.rows = j then 1 else 0
  let s := (List.range E.rows).foldl (kernelStep E.cols) (aug, 0)
  let columns := ((List.range E.cols).drop s.2).filter fun c => (List.range E.rows).all fun i => s.1 i c = 0
  { rows := columns.length, cols := E.cols, e := fun r k => s.1 (E.rows + k) (columns.getD r 0) }

/-- entry of the bilinear form matrix `[[0, 1], [1, 0]]`, qubit_tapering.py:240-246; `m` is the size of a block -/
def formEntry (m k l : ℕ) : ℕ := if k + m = l ∨ l + m = k then 1 else 0

/-- `find_commutation_matrix`, qubit_tapering.py:222-253: two `uint8` matrix products (sums modulo 256), then `% 2` -/
def commutation (B : BMat) : BMat :=
  { rows := B.rows, cols := B.rows,
    e := fun i j =>
      let inner : ℕ → ℕ := fun k => (∑ l ∈ Finset.range B.cols, formEntry (B.cols / 2) k l * (B.e j l).val) % 256
      (((∑ k ∈ Finset.range B.cols, (B.e i k).val * inner k) % 256 % 2 : ℕ) : ZMod 2) }

/-- the loop over `pauli` in the orthogonalisation, qubit_tapering.py:296-301: every unprocessed row is updated; the
commutation matrix is the one computed before the loop -/
def sgsoUpdate (C : ℕ → ℕ → ZMod 2) (processed : List ℕ) (p1 p2 : ℕ) (B : ℕ → ℕ → ZMod 2) (pauli : ℕ) : ℕ → ℕ → ZMod 2 :=
  if pauli ∈ processed then B
  else
    let B := if C pauli p2 ≠ 0 then Function.update B pauli (fun j => B pauli j + B p1 j) else B
    if C pauli p1 ≠ 0 then Function.update B pauli (fun j => B pauli j + B p2 j) else B

/-- the local variables of `Symplectic_Gram_Schmidt_Orthogonalization` -/
structure SgsoVars where
  B : BMat
  C : BMat
  processed : List ℕ

/-- the body of the loop over `pauli_1`, qubit_tapering.py:287-304 -/
def sgsoStep (s : SgsoVars) (p1 : ℕ) : SgsoVars :=
  if p1 ∈ s.processed then s
  else
    let processed := p1 :: s.processed
    let anticommute := (List.range s.C.cols).filter fun j => s.C.e p1 j ≠ 0
    if anticommute = [] then { s with processed := processed }
    else
      match anticommute.find? (fun p2 => p2 ∉ processed) with
      | none => { s with C := commutation s.B, processed := processed }
      | some p2 =>
        let B : BMat := { s.B with e := (List.range s.B.rows).foldl (sgsoUpdate s.C.e (p2 :: processed) p1 p2) s.B.e }
        { B := B, C := commutation B, processed := p2 :: processed }

/-- `Symplectic_Gram_Schmidt_Orthogonalization`, qubit_tapering.py:256-306 -/
def sgso (B C : BMat) : BMat × BMat :=
  let s := (List.range B.rows).foldl sgsoStep { B := B, C := C, processed := [] }
  (s.B, s.C)

/-- the search for the row to keep, qubit_tapering.py:346-354: `(hmng, idx)` -/
def pickRow (C : BMat) (s : ℕ × ℕ) (row : ℕ) : ℕ × ℕ :=
  let h := ∑ j ∈ Finset.range C.cols, (C.e row j).val
  if h > 0 ∧ s.1 > h then (h, row) else s

/-- `np.delete(B, indices, axis=0)` -/
def deleteRows (B : BMat) (del : List ℕ) : BMat :=
  let keep := (List.range B.rows).filter fun r => r ∉ del
  { rows := keep.length, cols := B.cols, e := fun r => B.e (keep.getD r 0) }

/-- the `while` loop of `find_maximal_Abelian_subgroup`, qubit_tapering.py:344-362; `fuel` bounds the number of iterations -/
def abelianLoop (n : ℕ) : ℕ → BMat → BMat → Except Exc BMat
  | 0, _, _ => .error .diverges
  | fuel + 1, B, C =>
    if (List.range C.rows).all (fun i => (List.range C.cols).all fun j => C.e i j = 0) then .ok B
    else
      let idx := ((List.range C.rows).foldl (pickRow C) (2 * n, 0)).2
      let B := deleteRows B ((List.range C.cols).filter fun j => C.e idx j ≠ 0)
      abelianLoop n fuel B (commutation B)

/-- one column of the final elimination, qubit_tapering.py:377-394: the matrix, `lst` and `idx` -/
def elimStep (rows : ℕ) (s : (ℕ → ℕ → ZMod 2) × List ℕ × ℕ) (column : ℕ) : (ℕ → ℕ → ZMod 2) × List ℕ × ℕ :=
  let nz := (List.range rows).filter fun r => s.1 r column ≠ 0
  match nz with
  | [r] => if r ∉ s.2.1 then (s.1, s.2.1 ++ [r], s.2.2 + 1) else s
  | _ =>
    match nz.find? (fun r => r ∉ s.2.1) with
    | none => s
    | some r => ((nz.filter fun el => el ≠ r).foldl (fun G el => Function.update G el fun j => G el j + G r j) s.1, s.2.1 ++ [r], s.2.2 + 1)

/-- the loop over columns with its `break`, qubit_tapering.py:376-396 -/
def elimLoop (rows : ℕ) : List ℕ → (ℕ → ℕ → ZMod 2) × List ℕ × ℕ → (ℕ → ℕ → ZMod 2) × List ℕ × ℕ
  | [], s => s
  | c :: r, s =>
    let s := elimStep rows s c
    if s.2.2 = rows then s else elimLoop rows r s

/-- the columns in the order in which they are eliminated, qubit_tapering.py:372-375 -/
def elimRange (n : ℕ) (least : Bool) : List ℕ :=
  if least then ((List.range n).map fun i => n + i).reverse else (List.range n).map fun i => n + i

/-- `find_maximal_Abelian_subgroup`, qubit_tapering.py:309-398 -/
def maximalAbelian (fuel n : ℕ) (B C : BMat) (least : Bool) : Except Exc BMat := do
  let G ← abelianLoop n fuel B C
  pure { G with e := (elimLoop G.rows (elimRange n least) (G.e, [], 0)).1 }

/-- one generator as a circuit, qubit_tapering.py:62-75: qubits in increasing order (`j` runs downwards) -/
noncomputable def generatorCircuit (n : ℕ) (v : ℕ → ZMod 2) : Except Exc Circuit :=
  (List.range n).reverse.foldlM (fun c j =>
    if v j ≠ 0 ∨ v (j + n) ≠ 0 then do
      let g ← pyGate1 (if v j = 1 ∧ v (j + n) = 1 then "Y" else if v j = 1 then "X" else "Z") (n - j - 1) 0
      pure (c.addGate g)
    else pure c) []

/-- the qubits to taper, qubit_tapering.py:78-86 (`np.uint16`, exact for registers of up to 65536 qubits): the last column in the
range with a single non-zero entry wins; rows without such a column keep the initial 0 -/
def sigmaX (n : ℕ) (G : BMat) (least : Bool) : List ℕ :=
  (if least then List.range n else (List.range n).reverse).foldl (fun s i =>
    match (List.range G.rows).filter fun r => G.e r (n + i) ≠ 0 with
    | [r] => s.set r (n - i - 1)
    | _ => s) (List.replicate G.rows 0)

/-- what `find_Z2_symmetries(..., debug=True)` returns -/
structure Symmetries where
  generators : List Circuit
  sigmaX : List ℕ
  unitaries : List QubitOperator
  unitary : QubitOperator

/-- `(generator + X_sigma) / sqrt 2`, qubit_tapering.py:98-103 -/
noncomputable def unitaryOf (gen : Circuit) (s : ℕ) : Except Exc QubitOperator := do
  let x ← pyGate1 "X" s 0
  let circ : Circuit := Circuit.addGate [] x
  pure ((QubitOperator.addTerm [] (1 / (Real.sqrt 2 : ℂ)) gen).addTerm (1 / (Real.sqrt 2 : ℂ)) circ)

/-- `find_Z2_symmetries` with `debug=True`, qubit_tapering.py:11-114.  `np.argsort(...)[::-1]` is a sort oracle: indices of the
entries in descending order. -/
noncomputable def findZ2 (o : SQOperator.DescSort) (fuel : ℕ) (H : QubitOperator) (least : Bool) : Except Exc Symmetries := do
  let n := H.numQubits
  let basis := kernel (parityCheck n H)
  let (B, C) := sgso basis (commutation basis)
  let G ← maximalAbelian fuel n B C least
  let gens ← (List.range G.rows).mapM fun i => generatorCircuit n (G.e i)
  let sig := sigmaX n G least
  let reorder := o.perm sig
  let sig := reorder.map fun i => sig.getD i 0
  let gens := reorder.map fun i => gens.getD i []
  let us ← (gens.zip sig).mapM fun t => unitaryOf t.1 t.2
  match us with
  | [] => .error .indexError
  | u :: rest => do
    let unitary ← rest.foldlM (fun U op => U.operatorProduct op true true) (QubitOperator.addOp [] u)
    pure { generators := gens, sigmaX := sig, unitaries := u :: rest, unitary := unitary }

/-- one gate of the loop of `taper_operator`, qubit_tapering.py:456-464: `np.argwhere(tapered_qubits == target).item()` raises
ValueError unless the qubit is listed once -/
noncomputable def taperGate (tapered : List ℕ) (sign : List ℤ) (s : ℂ × Circuit) (g : Gate) : Except Exc (ℂ × Circuit) :=
  if g.target ∈ tapered then
    match (List.range tapered.length).filter fun i => tapered.getD i 0 = g.target with
    | [i] => .ok (s.1 * (sign.getD i 0 : ℂ), s.2)
    | _ => .error .valueError
  else do
    let x ← pyGate1 g.label (g.target - (tapered.filter fun t => g.target > t).length) 0
    pure (s.1, s.2.addGate x)

/-- `taper_operator(tapered_qubits, sign, operator, unitary)`, qubit_tapering.py:401-470, with `tapered_qubits` the numpy array
returned by `find_Z2_symmetries` and integer signs.  The copies made with `add_op` are the `addOp []`. -/
noncomputable def taperOperator (tapered : List ℕ) (sign : List ℤ) (operator unitary : QubitOperator) : Except Exc QubitOperator := do
  if ¬ sign.all (fun i => decide (i = 1 ∨ i = -1)) then throw .valueError
  if sign.length ≠ tapered.length then throw .valueError
  let unitaryTmp := QubitOperator.addOp [] unitary
  let operatorTmp := QubitOperator.addOp [] operator
  let operatorTmp ← operatorTmp.operatorProduct unitaryTmp true true
  let unitaryTmp ← unitaryTmp.operatorProduct operatorTmp true true
  let tapered ← unitaryTmp.foldlM (fun (R : QubitOperator) t => do
    let (coeff, circuit) ← t.2.foldlM (taperGate tapered sign) (t.1, [])
    pure (R.addTerm coeff circuit)) []
  tapered.simplify

end Taper
end QF
