import Verif.Model.ComputerOps
import Mathlib.Data.Complex.BigOperators

/-!
Model of `src/qforte/computer.cc`: measurement and expectation values.

Every function returns its value together with the computer after the call.
`basis_[k]` is `QubitBasis(k)` (computer.cc:31-33), so `basis_[k].get_bit(t)` is bit `t` of `k` (C01).
-/
namespace QF

/-- the basis change built by `measure_circuit`, `measure_readouts` and `perfect_measure_circuit`,
computer.cc:147-162, 228-242, 283-298: gate ids other than X, Y, Z contribute nothing -/
noncomputable def basisRotator (qc : Circuit) : Except Exc Circuit :=
  qc.foldlM (fun rot g =>
    if g.label = "Z" then do
      let t ← makeGate "I" g.target g.target 0
      pure (rot ++ [t])
    else if g.label = "X" then do
      let t ← makeGate "H" g.target g.target 0
      pure (rot ++ [t])
    else if g.label = "Y" then do
      let t ← makeGate "Rx" g.target g.target (Real.pi / 2)
      pure (rot ++ [t])
    else pure rot) []

/-- `probs[k] = real(conj(coeff_[k]) * coeff_[k])`, computer.cc:167-169, 198-200, 248-251 -/
noncomputable def Computer.probs (q : Computer) : List ℝ := q.coeff.map fun z => ((starRingEnd ℂ) z * z).re

/-- `std::random_device`, `std::mt19937`, `std::discrete_distribution`: the `k`-th draw from given weights.  Nothing
is assumed about it beyond what the C++ standard says of `discrete_distribution`: if some weight is positive, an index
of positive weight is returned. -/
structure Sampler where
  draw : List ℝ → ℕ → ℕ
  valid : ∀ w : List ℝ, (∀ x ∈ w, 0 ≤ x) → (∃ x ∈ w, 0 < x) → ∀ k, 0 < w.getD (draw w k) 0

/-- the product `∏ (1 - 2 bit)` over the gates of the string, computer.cc:182-186, 304-308 -/
noncomputable def signValue (qc : Circuit) (k : ℕ) : ℝ :=
  qc.foldl (fun v g => v * (1 - 2 * (if k.testBit g.target then 1 else 0))) 1

/-- `measure_circuit`, computer.cc:135-192 -/
noncomputable def Computer.measureCircuit (q : Computer) (s : Sampler) (qc : Circuit) (n : ℕ) : Except Exc (List ℝ × Computer) := do
  let rot ← basisRotator qc
  let q1 ← q.applyCircuit rot
  let results := (List.range n).map fun k => signValue qc (s.draw q1.probs k)
  pure (results, { q1 with coeff := q.coeff })

/-- `measure_z_readouts_fast`, computer.cc:194-217 (bits `na..nb` inclusive) -/
noncomputable def Computer.measureZReadoutsFast (q : Computer) (s : Sampler) (na nb n : ℕ) : List (List ℕ) :=
  (List.range n).map fun k => (List.range' na (nb + 1 - na)).map fun l => if (s.draw q.probs k).testBit l then 1 else 0

/-- `measure_readouts`, computer.cc:219-273 -/
noncomputable def Computer.measureReadouts (q : Computer) (s : Sampler) (qc : Circuit) (n : ℕ) : Except Exc (List (List ℕ) × Computer) := do
  let rot ← basisRotator qc
  let q1 ← q.applyCircuit rot
  let readouts := (List.range n).map fun k => qc.map fun g => if (s.draw q1.probs k).testBit g.target then 1 else 0
  pure (readouts, { q1 with coeff := q.coeff })

/-- `perfect_measure_circuit`, computer.cc:275-315 -/
noncomputable def Computer.perfectMeasureCircuit (q : Computer) (qc : Circuit) : Except Exc (ℝ × Computer) := do
  let rot ← basisRotator qc
  let q1 ← q.applyCircuit rot
  let sum ← (List.range q1.nbasis).foldlM (fun sum k => do
    let a ← rd q1.coeff k
    pure (sum + ((signValue qc k : ℂ) * a * (starRingEnd ℂ) a).re)) (0 : ℝ)
  pure (sum, { q1 with coeff := q.coeff })

/-- `direct_circ_exp_val`, computer.cc:837-848 -/
noncomputable def Computer.directCircExpVal (q : Computer) (qc : Circuit) : Except Exc (ℂ × Computer) := do
  let q1 ← q.applyCircuit qc
  let r ← innerProd 0 q.coeff q1.coeff
  pure (r, { q1 with coeff := q.coeff })

/-- `get_pauli_permuted_idx`, computer.cc:914-935 -/
noncomputable def pauliPermutedIdx (I : ℕ) (xs ys zs : List ℕ) : ℕ × ℂ :=
  let b := xs.foldl (fun b xi => flipBit b xi) I
  let p := ys.foldl (fun (p : ℕ × ℂ) yi =>
    (flipBit p.1 yi, p.2 * (Complex.I * (1 - 2 * (if p.1.testBit yi then 1 else 0))))) (b, 1)
  (p.1, zs.foldl (fun v zi => v * (1 - 2 * (if p.1.testBit zi then 1 else 0))) p.2)

/-- the lists `x_idxs`, `y_idxs`, `z_idxs` and `min_qb_idx`, computer.cc:872-890 -/
def pauliIdxs (nqubit : ℕ) (qc : Circuit) : Except Exc (ℕ × List ℕ × List ℕ × List ℕ) :=
  qc.foldlM (fun s g =>
    let m := if g.target < s.1 then g.target else s.1
    if g.label = "Z" then .ok (m, s.2.1, s.2.2.1, s.2.2.2 ++ [g.target])
    else if g.label = "X" then .ok (m, s.2.1 ++ [g.target], s.2.2.1, s.2.2.2)
    else if g.label = "Y" then .ok (m, s.2.1, s.2.2.1 ++ [g.target], s.2.2.2)
    else .error .runtimeError) (nqubit - 1, [], [], [])

/-- `std::inner_product(it1, it2, it3, ...)` over the window `[a, a+len)` against the window starting at `b` -/
noncomputable def windowProd (l : List ℂ) (a b len : ℕ) : Except Exc ℂ :=
  (List.range len).foldlM (fun acc k => do
    let x ← rd l (a + k)
    let y ← rd l (b + k)
    pure (acc + (starRingEnd ℂ) x * y)) 0

/-- one iteration of the OpenMP loop, computer.cc:897-909 -/
noncomputable def Computer.pauliBlock (q : Computer) (bs : ℕ) (xs ys zs : List ℕ) (n : ℕ) : Except Exc ℂ := do
  let p := pauliPermutedIdx (n * bs) xs ys zs
  let w ← windowProd q.coeff (n * bs) p.1 bs
  pure (p.2 * w)

/-- How `#pragma omp parallel for reduction(+)` distributes the iterations: a list of threads, each with the
iterations it performs in order; each iteration is performed exactly once. -/
structure Schedule where
  threads : ℕ → List (List ℕ)
  isPerm : ∀ n, (threads n).flatten.Perm (List.range n)

/-- `direct_pauli_circ_exp_val`, computer.cc:850-911.  The `int` variables are taken as unbounded.  With no qubits and
no gates `min_qb_idx` is -1 and `block_size` is 0, so `nbasis_ / block_size` divides by zero. -/
noncomputable def Computer.directPauliCircExpVal (q : Computer) (sch : Schedule) (qc : Circuit) : Except Exc ℂ := do
  let (m, xs, ys, zs) ← pauliIdxs q.nqubit qc
  if q.nqubit = 0 ∧ qc = [] then .error .undefinedBehaviour
  let bs := 2 ^ m
  let parts ← (sch.threads (q.nbasis / bs)).mapM fun th =>
    th.foldlM (fun acc n => do
      let v ← q.pauliBlock bs xs ys zs n
      pure (acc + v)) (0 : ℂ)
  pure (parts.foldl (· + ·) 0)

/-- `direct_op_exp_val`, computer.cc:753-771; `parallelism_enabled` is a compile-time constant -/
noncomputable def Computer.directOpExpVal (q : Computer) (par : Option Schedule) (A : QubitOperator) : Except Exc (ℂ × Computer) :=
  match par with
  | some sch => do
    let r ← A.foldlM (fun r t => do
      let v ← q.directPauliCircExpVal sch t.2
      pure (r + t.1 * v)) (0 : ℂ)
    pure (r, q)
  | none => do
    let q1 ← q.applyOperator A
    let r ← innerProd 0 q.coeff q1.coeff
    pure (r, { q1 with coeff := q.coeff })

/-- `QubitOpPool`, qubit_op_pool.h: the list of (coefficient, operator) -/
abbrev QubitOpPool := List (ℂ × QubitOperator)

/-- `direct_oppl_exp_val`, computer.cc:773-782 -/
noncomputable def Computer.directOpplExpVal (q : Computer) (par : Option Schedule) (P : QubitOpPool) : Except Exc (List ℂ × Computer) :=
  P.foldlM (fun s t => do
    let (v, q1) ← s.2.directOpExpVal par t.2
    pure (s.1 ++ [v * t.1], q1)) ([], q)

/-- `direct_idxd_oppl_exp_val`, computer.cc:784-806; an index out of range is undefined behaviour -/
noncomputable def Computer.directIdxdOpplExpVal (q : Computer) (par : Option Schedule) (P : QubitOpPool) (idxs : List ℤ) :
    Except Exc (List ℂ × Computer) :=
  idxs.foldlM (fun s i => do
    if i < 0 then .error .undefinedBehaviour
    match P[i.toNat]? with
    | none => .error .undefinedBehaviour
    | some t =>
      match par with
      | some sch => do
        let (v, q1) ← s.2.directOpExpVal (some sch) t.2
        pure (s.1 ++ [v * t.1], q1)
      | none => do
        let q1 ← s.2.applyOperator t.2
        let r ← innerProd 0 q.coeff q1.coeff
        pure (s.1 ++ [r * t.1], { q1 with coeff := q.coeff })) ([], q)

/-- `direct_oppl_exp_val_w_mults`, computer.cc:809-835 -/
noncomputable def Computer.directOpplExpValWMults (q : Computer) (par : Option Schedule) (P : QubitOpPool) (mults : List ℂ) :
    Except Exc (List ℂ × Computer) :=
  P.foldlM (fun s t => do
    let (r, q1) ← t.2.zipIdx.foldlM (fun (acc : ℂ × Computer) u => do
      let m ← rd mults u.2
      let val := m * t.1 * u.1.1
      match par with
      | some sch => do
        let v ← acc.2.directPauliCircExpVal sch u.1.2
        pure (acc.1 + val * v, acc.2)
      | none => do
        let (v, q2) ← acc.2.directCircExpVal u.1.2
        pure (acc.1 + val * v, q2)) (0, s.2)
    pure (s.1 ++ [r], q1)) ([], q)

/-- `direct_gate_exp_val`, computer.cc:937-954 -/
noncomputable def Computer.directGateExpVal (q : Computer) (g : Gate) : Except Exc (ℂ × Computer) := do
  let q1 ← (if g.nqubits = 1 then q.apply1 g else pure q)
  let q2 ← (if g.nqubits = 2 then q1.apply2 g else pure q1)
  let r ← innerProd 0 q.coeff q2.newCoeff
  pure (r, { q2 with newCoeff := q2.newCoeff.map fun _ => 0 })

end QF
