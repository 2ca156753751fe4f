import Verif.Model.Gate
import Verif.Spec.GateOp

/-!
Model of the state vector engine, `src/qforte/computer.{h,cc}` (gate application).
-/
namespace QF

/-- `class Computer`, computer.h:22-180.  `basis_` always holds `QubitBasis(0), QubitBasis(1), ...`
(computer.cc:34-36, never modified), so it is represented by `List.range nbasis`.  Timings and the print
threshold are not modelled. -/
structure Computer where
  nqubit : ℕ
  nbasis : ℕ
  coeff : List ℂ
  newCoeff : List ℂ
  noneOps : ℕ
  ntwoOps : ℕ

/-- `Computer::Computer(int nqubit, double)`, computer.cc:28-38 -/
noncomputable def Computer.init (nqubit : ℕ) : Computer where
  nqubit := nqubit
  nbasis := 2 ^ nqubit
  coeff := (List.replicate (2 ^ nqubit) (0 : ℂ)).set 0 1
  newCoeff := List.replicate (2 ^ nqubit) 0
  noneOps := 0
  ntwoOps := 0

/-- `compute_threshold_`, computer.h:172 -/
noncomputable def thr : ℝ := 1e-16

/-- read of a `std::vector` element; out of range is undefined behaviour -/
def rd (l : List ℂ) (I : ℕ) : Except Exc ℂ :=
  match l[I]? with
  | some x => .ok x
  | none => .error .undefinedBehaviour

/-- write of a `std::vector` element; out of range is undefined behaviour -/
def wr (l : List ℂ) (I : ℕ) (v : ℂ) : Except Exc (List ℂ) :=
  if I < l.length then .ok (l.set I v) else .error .undefinedBehaviour

/-! ### loop skeletons -/

/-- values of the loop variables `block_start_0, block_start_1, block_end_0` -/
structure Blk where
  s0 : ℕ
  s1 : ℕ
  e : ℕ

/-- `block_start_0 += d; block_start_1 += d; block_end_0 += d` -/
def Blk.adv (b : Blk) (d : ℕ) : Blk := ⟨b.s0 + d, b.s1 + d, b.e + d⟩

/-- `for (; block_end_0 <= bound;) { <visit b> ; advance by off }`: the blocks visited and the loop
variables afterwards (computer.cc:361-372 and similar).  `0 < off` always holds (it is a power of two)
and makes the recursion terminate. -/
def innerLoop (off bound : ℕ) (b : Blk) : List Blk × Blk :=
  if 0 < off ∧ b.e ≤ bound then
    let r := innerLoop off bound (b.adv off)
    (b :: r.1, r.2)
  else ([], b)
termination_by bound + 1 - b.e
decreasing_by simp only [Blk.adv]; omega

/-- `for (; outer_block_end <= nbasis_;) { inner loop up to (bound outer_block_end); advance the block
variables by outer_block_size; outer_block_end += outer_block_offset }` (computer.cc:482-500 etc.) -/
def outerLoop (off obs ooff nb : ℕ) (bound : ℕ → ℕ) (oe : ℕ) (b : Blk) : List Blk :=
  if 0 < ooff ∧ oe ≤ nb then
    let r := innerLoop off (bound oe) b
    r.1 ++ outerLoop off obs ooff nb bound (oe + ooff) (r.2.adv obs)
  else []
termination_by nb + 1 - oe
decreasing_by omega

/-- `for (i = start; i < stop; i += step)`: the values of `i` visited -/
def forStep (start stop step : ℕ) : List ℕ :=
  if 0 < step ∧ start < stop then start :: forStep (start + step) stop step else []
termination_by stop - start
decreasing_by omega

/-- `for (I0 = block_start_0; I0 < block_end_0; ++I0)` -/
def Blk.idxs (b : Blk) : List ℕ := (List.range (b.e - b.s0)).map (b.s0 + ·)

/-- `for (I0 = block_start_0, I1 = block_start_1; I0 < block_end_0; ++I0, ++I1)` -/
def Blk.pairs (b : Blk) : List (ℕ × ℕ) := (List.range (b.e - b.s0)).map fun k => (b.s0 + k, b.s1 + k)

/-! ### loop bodies -/

/-- `x0 = coeff_[I0]; x1 = coeff_[I1]; coeff_[I0] = a*x0 + b*x1; coeff_[I1] = c*x0 + d*x1;`
(computer.cc:363-368) over all visited pairs -/
noncomputable def pairKernel (a b c d : ℂ) (ps : List (ℕ × ℕ)) (l : List ℂ) : Except Exc (List ℂ) :=
  ps.foldlM (fun l p => do
    let x0 ← rd l p.1
    let x1 ← rd l p.2
    let l ← wr l p.1 (a * x0 + b * x1)
    wr l p.2 (c * x0 + d * x1)) l

/-- `coeff_[I] = a * coeff_[I]` (computer.cc:378) -/
noncomputable def scaleKernel (a : ℂ) (is : List ℕ) (l : List ℂ) : Except Exc (List ℂ) :=
  is.foldlM (fun l I => do
    let x ← rd l I
    wr l I (a * x)) l

/-- `std::swap(coeff_[I0], coeff_[I1])` (computer.cc:404) -/
def swapKernel (ps : List (ℕ × ℕ)) (l : List ℂ) : Except Exc (List ℂ) :=
  ps.foldlM (fun l p => do
    let x0 ← rd l p.1
    let x1 ← rd l p.2
    let l ← wr l p.1 x1
    wr l p.2 x0) l

/-- `x0 = coeff_[I0]; coeff_[I0] = b * coeff_[I1]; coeff_[I1] = c * x0;` (computer.cc:416-418) -/
noncomputable def antiKernel (b c : ℂ) (ps : List (ℕ × ℕ)) (l : List ℂ) : Except Exc (List ℂ) :=
  ps.foldlM (fun l p => do
    let x0 ← rd l p.1
    let x1 ← rd l p.2
    let l ← wr l p.1 (b * x1)
    wr l p.2 (c * x0)) l

open Classical in
/-- `Computer::apply_1qubit_gate`, computer.cc:340-425.  `op_0_1 == op_1_0 == 1.0` (line 397) is parsed
by C++ as `(op_0_1 == op_1_0) == 1.0`, i.e. `op_0_1 == op_1_0`. -/
noncomputable def Computer.apply1 (q : Computer) (g : Gate) : Except Exc Computer := do
  let blockSize := 2 ^ g.target
  let blockOffset := 2 * blockSize
  let m00 := g.mat 0 0
  let m01 := g.mat 0 1
  let m10 := g.mat 1 0
  let m11 := g.mat 1 1
  let coeff ← (
    if ‖m00‖ + ‖m11‖ > thr ∧ ‖m01‖ + ‖m10‖ > thr then
      pairKernel m00 m01 m10 m11
        ((innerLoop blockOffset q.nbasis ⟨0, blockSize, blockSize⟩).1.flatMap Blk.pairs) q.coeff
    else if ‖m00‖ + ‖m11‖ > thr then do
      let l ← (
        if m00 ≠ 1 then
          scaleKernel m00 ((innerLoop blockOffset q.nbasis ⟨0, 0, blockSize⟩).1.flatMap Blk.idxs) q.coeff
        else pure q.coeff)
      if m11 ≠ 1 then
        scaleKernel m11
          ((innerLoop blockOffset q.nbasis ⟨blockSize, 0, blockSize + blockSize⟩).1.flatMap Blk.idxs) l
      else pure l
    else if m01 = m10 then
      swapKernel (((innerLoop blockOffset q.nbasis ⟨0, 0, blockSize⟩).1.flatMap Blk.idxs).map
        fun I0 => (I0, I0 + blockSize)) q.coeff
    else
      antiKernel m01 m10 (((innerLoop blockOffset q.nbasis ⟨0, 0, blockSize⟩).1.flatMap Blk.idxs).map
        fun I0 => (I0, I0 + blockSize)) q.coeff)
  pure { q with coeff := coeff, noneOps := q.noneOps + 1 }

open Classical in
/-- `new_coeff_[I] += op * coeff_[J]` for all basis states `J` with `cond J`, `I = dest J`
(computer.cc:327-333 and 447-454) -/
noncomputable def accum (basis : List ℕ) (cond : ℕ → Bool) (dest : ℕ → ℕ) (op : ℂ) (coeff : List ℂ)
    (nw : List ℂ) : Except Exc (List ℂ) :=
  basis.foldlM (fun nw J =>
    if cond J then do
      let x ← rd coeff J
      let y ← rd nw (dest J)
      wr nw (dest J) (y + op * x)
    else pure nw) nw

open Classical in
/-- `Computer::apply_1qubit_gate_safe`, computer.cc:319-338 -/
noncomputable def Computer.apply1Safe (q : Computer) (g : Gate) : Except Exc Computer := do
  let nw ← [false, true].foldlM (fun nw i =>
    [false, true].foldlM (fun nw j =>
      let op := g.mat (ix1 i) (ix1 j)
      if ‖op‖ > thr then
        accum (List.range q.nbasis) (fun J => J.testBit g.target == j)
          (fun J => setBit J g.target i) op q.coeff nw
      else pure nw) nw) q.newCoeff
  pure { q with newCoeff := nw, noneOps := q.noneOps + 1 }

open Classical in
/-- the accumulation loops of `Computer::apply_2qubit_gate_safe`, computer.cc:434-453, repeated
literally in Case 2 of `apply_2qubit_gate`, computer.cc:721-750 -/
noncomputable def accum2 (q : Computer) (g : Gate) : Except Exc (List ℂ) :=
  [(false, false), (false, true), (true, false), (true, true)].foldlM (fun nw i =>
    [(false, false), (false, true), (true, false), (true, true)].foldlM (fun nw j =>
      let op := g.mat (ix2 i.1 i.2) (ix2 j.1 j.2)
      if ‖op‖ > thr then
        accum (List.range q.nbasis)
          (fun J => J.testBit g.control == j.1 && J.testBit g.target == j.2)
          (fun J => setBit (setBit J g.control i.1) g.target i.2) op q.coeff nw
      else pure nw) nw) q.newCoeff

/-- `Computer::apply_2qubit_gate_safe`, computer.cc:427-456 -/
noncomputable def Computer.apply2Safe (q : Computer) (g : Gate) : Except Exc Computer := do
  let nw ← accum2 q g
  pure { q with newCoeff := nw, ntwoOps := q.ntwoOps + 1 }

open Classical in
/-- `Computer::apply_2qubit_gate` Case I-A (controlled gate, target < control), computer.cc:472-598 -/
noncomputable def apply2A (nbasis t c : ℕ) (m22 m23 m32 m33 : ℂ) (l : List ℂ) : Except Exc (List ℂ) :=
  let outerSize := 2 ^ c
  let outerOff := 2 * outerSize
  let blockSize := 2 ^ t
  let blockOff := 2 * blockSize
  -- the four-variable loop over blocks (block_start_0, block_start_1, block_end_0, outer_block_end)
  let blocks := outerLoop blockOff outerSize outerOff nbasis (fun oe => oe) outerOff
    ⟨outerSize, outerSize + blockSize, outerSize + blockSize⟩
  if ‖m22‖ + ‖m33‖ > thr ∧ ‖m23‖ + ‖m32‖ > thr then
    pairKernel m22 m23 m32 m33 (blocks.flatMap Blk.pairs) l
  else if ‖m22‖ + ‖m33‖ > thr then do
    let l ← (
      if m22 ≠ 1 then scaleKernel m22 (blocks.flatMap Blk.idxs) l
      else pure l)
    if m33 ≠ 1 then
      scaleKernel m33 ((outerLoop blockOff outerSize outerOff nbasis (fun oe => oe) outerOff
        ⟨outerSize + blockSize, 0, outerSize + blockSize + blockSize⟩).flatMap Blk.idxs) l
    else pure l
  else if m23 = m32 then swapKernel (blocks.flatMap Blk.pairs) l
  else antiKernel m23 m32 (blocks.flatMap Blk.pairs) l

open Classical in
/-- `Computer::apply_2qubit_gate` Case 1-B (controlled gate, control < target), computer.cc:599-719.
The `int` loop variables and `1 << target` of the code are taken as unbounded. -/
noncomputable def apply2B (nbasis t c : ℕ) (m22 m23 m32 m33 : ℂ) (l : List ℂ) : Except Exc (List ℂ) :=
  let outerSize := 2 ^ t
  let outerOff := outerSize * 2
  let blockSize := 2 ^ c
  let blockOff := blockSize * 2
  if ‖m22‖ + ‖m33‖ > thr ∧ ‖m23‖ + ‖m32‖ > thr then
    pairKernel m22 m23 m32 m33 ((outerLoop blockOff outerSize outerOff nbasis
      (fun oe => oe - outerSize) outerOff ⟨blockSize, outerSize + blockSize, blockOff⟩).flatMap Blk.pairs) l
  else if ‖m22‖ + ‖m33‖ > thr then do
    let l ← (
      if m22 ≠ 1 then
        scaleKernel m22 ((forStep 0 nbasis outerOff).flatMap fun os =>
          (forStep (os + blockSize) (os + outerSize) blockOff).flatMap fun bs =>
            forStep bs (bs + blockSize) 1) l
      else pure l)
    if m33 ≠ 1 then
      scaleKernel m33 ((outerLoop blockOff outerSize outerOff nbasis (fun oe => oe) outerOff
        ⟨outerSize + blockSize, 0, outerSize + blockSize + blockSize⟩).flatMap Blk.idxs) l
    else pure l
  else if m23 = m32 then
    swapKernel ((outerLoop blockOff outerSize outerOff nbasis (fun oe => oe) outerSize
      ⟨blockSize, outerSize + blockSize, blockOff⟩).flatMap Blk.pairs) l
  else
    antiKernel m23 m32 ((outerLoop blockOff outerSize outerOff nbasis (fun oe => oe) outerSize
      ⟨blockSize, outerSize + blockSize, blockOff⟩).flatMap Blk.pairs) l

open Classical in
/-- `Computer::apply_2qubit_gate`, computer.cc:458-751 -/
noncomputable def Computer.apply2 (q : Computer) (g : Gate) : Except Exc Computer :=
  let m22 := g.mat 2 2
  let m23 := g.mat 2 3
  let m32 := g.mat 3 2
  let m33 := g.mat 3 3
  if ‖g.mat 0 1‖ + ‖g.mat 1 0‖ < thr ∧ g.mat 0 0 = 1 ∧ g.mat 1 1 = 1 then do
    let q ← (
      if g.target < g.control then do
        let l ← apply2A q.nbasis g.target g.control m22 m23 m32 m33 q.coeff
        pure { q with coeff := l, ntwoOps := q.ntwoOps + 1 }
      else pure q)
    if g.control < g.target then do
      let l ← apply2B q.nbasis g.target g.control m22 m23 m32 m33 q.coeff
      pure { q with coeff := l, ntwoOps := q.ntwoOps + 1 }
    else pure q
  else do
    let nw ← accum2 q g
    pure { q with coeff := nw, newCoeff := nw.map (fun _ => 0), ntwoOps := q.ntwoOps + 1 }

/-- `Computer::apply_gate`, computer.cc:105-114 -/
noncomputable def Computer.applyGate (q : Computer) (g : Gate) : Except Exc Computer := do
  let q ← (if g.nqubits = 1 then q.apply1 g else pure q)
  if g.nqubits = 2 then q.apply2 g else pure q

/-- `Computer::apply_gate_safe`, computer.cc:116-128 -/
noncomputable def Computer.applyGateSafe (q : Computer) (g : Gate) : Except Exc Computer := do
  let q ← (if g.nqubits = 1 then q.apply1Safe g else pure q)
  let q ← (if g.nqubits = 2 then q.apply2Safe g else pure q)
  pure { q with coeff := q.newCoeff, newCoeff := q.newCoeff.map (fun _ => 0) }

/-- `Computer::apply_circuit`, computer.cc:93-97 (a circuit is its list of gates, circuit.h:96) -/
noncomputable def Computer.applyCircuit (q : Computer) (gs : List Gate) : Except Exc Computer :=
  gs.foldlM (fun q g => q.applyGate g) q

/-- `Computer::apply_circuit_safe`, computer.cc:99-103 -/
noncomputable def Computer.applyCircuitSafe (q : Computer) (gs : List Gate) : Except Exc Computer :=
  gs.foldlM (fun q g => q.applyGateSafe g) q

/-- `std::inner_product(l.begin(), l.end(), r.begin(), acc, +, conj(a)*b)` (computer.h:9-13): runs over
`l`; reading past the end of `r` is undefined behaviour -/
noncomputable def innerProd (acc : ℂ) : List ℂ → List ℂ → Except Exc ℂ
  | [], _ => .ok acc
  | a :: l, b :: r => innerProd (acc + (starRingEnd ℂ) a * b) l r
  | _ :: _, [] => .error .undefinedBehaviour

/-- `dot(Computer, Computer)` (python `qforte.dot`/`inner_product`), computer.cc:975-980 -/
noncomputable def Computer.dot (q1 q2 : Computer) : Except Exc ℂ := innerProd 0 q1.coeff q2.coeff

end QF
