import Verif.Model.QubitOperator

/-!
Model of `src/qforte/sq_operator.{h,cc}` (except `str`).
An `SQOperator` has the single data member `terms_`, a vector of (coefficient, creation indices, annihilation indices).
-/
namespace QF

abbrev SQTerm := ℂ × List ℕ × List ℕ
abbrev SQOperator := List SQTerm

/-- positions of `p` that do not hold their own index -/
def unfixed (p : List ℕ) : Finset ℕ := (Finset.range p.length).filter fun j => p[j]? ≠ some j

theorem unfixed_decreases (p : List ℕ) (i k x : ℕ) (h1 : p[i]? = some k) (h2 : ¬ k = i) (h3 : p[k]? = some x) (h4 : ¬ x = k) :
    (unfixed ((p.set i x).set k k)).card < (unfixed p).card := by
  have hi : i < p.length := by
    by_contra h; rw [List.getElem?_eq_none (by omega)] at h1; cases h1
  have hk : k < p.length := by
    by_contra h; rw [List.getElem?_eq_none (by omega)] at h3; cases h3
  apply Finset.card_lt_card
  refine ⟨?_, ?_⟩
  · intro j hj
    unfold unfixed at hj ⊢
    rw [Finset.mem_filter, Finset.mem_range] at hj ⊢
    simp only [List.length_set] at hj
    refine ⟨hj.1, ?_⟩
    intro e
    apply hj.2
    by_cases jk : j = k
    · subst jk; rw [List.getElem?_set_self (by simpa using hk)]
    · rw [List.getElem?_set_ne (fun h => jk h.symm)]
      by_cases ji : j = i
      · subst ji; rw [h1] at e; cases e; exact absurd rfl h2
      · rw [List.getElem?_set_ne (fun h => ji h.symm)]; exact e
  · intro h
    have : k ∈ unfixed p := by
      unfold unfixed
      rw [Finset.mem_filter, Finset.mem_range]
      refine ⟨hk, ?_⟩
      rw [h3]; intro e; cases e; exact h4 rfl
    have := h this
    unfold unfixed at this
    rw [Finset.mem_filter] at this
    apply this.2
    rw [List.getElem?_set_self (by simpa using hk)]

namespace SQOperator

/-- the `while (i != p[i])` loop of `permutation_phase`, sq_operator.cc:90-94: `p` and the number of swaps afterwards.
`std::swap(p[i], p[p[i]])` exchanges positions `i` and `k = p[i]`; if `p[k]` is already `k` nothing changes any
more and the loop does not end.  The vector `a` is written but never read. -/
def phaseWhile (p : List ℕ) (i cnt : ℕ) : Except Exc (List ℕ × ℕ) :=
  match h1 : p[i]? with
  | none => .error .undefinedBehaviour
  | some k =>
    if h2 : k = i then .ok (p, cnt)
    else match h3 : p[k]? with
      | none => .error .undefinedBehaviour
      | some x =>
        if h4 : x = k then .error .diverges
        else phaseWhile ((p.set i x).set k k) i (cnt + 1)
termination_by (unfixed p).card
decreasing_by exact unfixed_decreases p i k x h1 h2 h3 h4

/-- `permutation_phase`, sq_operator.cc:88-104: true for an odd permutation -/
def permutationPhase (p : List ℕ) : Except Exc Bool := do
  let r ← (List.range p.length).foldlM (fun s i => phaseWhile s.1 i s.2) (p, 0)
  pure (decide (r.2 % 2 ≠ 0))

/-- What `std::sort` in `canonicalize_helper` may return: positions listed so that the values descend.  Values may repeat,
and `std::sort` is not stable, so any such order is allowed. -/
structure DescSort where
  perm : List ℕ → List ℕ
  isPerm : ∀ l, (perm l).Perm (List.range l.length)
  sorted : ∀ l, (perm l).Pairwise fun i j => l.getD j 0 ≤ l.getD i 0

/-- `canonicalize_helper`, sq_operator.cc:40-53: the reordered list and the sign -/
noncomputable def canonicalizeHelper (o : DescSort) (ops : List ℕ) : Except Exc (List ℕ × ℂ) := do
  let temp := o.perm ops
  let ops' := temp.map fun i => ops.getD i 0
  let odd ← permutationPhase temp
  pure (ops', if odd then -1 else 1)

/-- `canonical_order_single_term`, sq_operator.cc:55-59 -/
noncomputable def canonicalOrderSingle (o : DescSort) (t : SQTerm) : Except Exc SQTerm := do
  let r1 ← canonicalizeHelper o t.2.1
  let r2 ← canonicalizeHelper o t.2.2
  pure (t.1 * r1.2 * r2.2, r1.1, r2.1)

/-- `canonical_order`, sq_operator.cc:61-65 -/
noncomputable def canonicalOrder (o : DescSort) (A : SQOperator) : Except Exc SQOperator := A.mapM (canonicalOrderSingle o)

/-- `add_term`, sq_operator.cc:11-14 -/
def addTerm (A : SQOperator) (z : ℂ) (cre ann : List ℕ) : SQOperator := A ++ [(z, cre, ann)]

/-- `add_op`, sq_operator.cc:16-18, for an argument that is a different object than `*this` -/
def addOp (A B : SQOperator) : SQOperator := A ++ B

/-- `set_coeffs`, sq_operator.cc:20-27 -/
def setCoeffs (A : SQOperator) (zs : List ℂ) : Except Exc SQOperator :=
  if zs.length ≠ A.length then .error .invalidArgument
  else .ok (List.zipWith (fun z t => (z, t.2)) zs A)

/-- `mult_coeffs`, sq_operator.cc:29-33 -/
def multCoeffs (A : SQOperator) (z : ℂ) : SQOperator := A.map fun t => (t.1 * z, t.2)

/-- lexicographic `<` of `std::vector<size_t>` -/
def vlt : List ℕ → List ℕ → Bool
  | [], [] => false
  | [], _ :: _ => true
  | _ :: _, [] => false
  | a :: as, b :: bs => if a < b then true else if b < a then false else vlt as bs

/-- `<` of the key type `std::pair<std::vector<size_t>, std::vector<size_t>>` -/
def klt (a b : List ℕ × List ℕ) : Bool := if vlt a.1 b.1 then true else if vlt b.1 a.1 then false else vlt a.2 b.2

/-- one iteration of the loop of `simplify` on the map `unique_terms`, sq_operator.cc:71-78; the map is the list of its
entries in key order -/
noncomputable def mapAdd (k : List ℕ × List ℕ) (v : ℂ) : List ((List ℕ × List ℕ) × ℂ) → List ((List ℕ × List ℕ) × ℂ)
  | [] => [(k, v)]
  | (k', v') :: m =>
    if klt k k' then (k, v) :: (k', v') :: m
    else if klt k' k then (k', v') :: mapAdd k v m
    else (k', v' + v) :: m

open Classical in
/-- `simplify`, sq_operator.cc:67-86 -/
noncomputable def simplify (o : DescSort) (A : SQOperator) : Except Exc SQOperator := do
  let A ← A.canonicalOrder o
  let m := A.foldl (fun m t => mapAdd t.2 t.1 m) []
  pure ((m.filter fun e => decide (‖e.2‖ > 1e-12)).map fun e => (e.2, e.1))

/-- the gates `Z_0 … Z_{p-1}` (none for qubit excitations), sq_operator.cc:116-121.
`int k < size_t sq_op` is taken as unbounded. -/
noncomputable def zGates (p : ℕ) (qubitExc : Bool) : Except Exc Circuit :=
  if qubitExc then .ok [] else (List.range p).mapM fun k => makeGate "Z" k k 0

/-- the qubit operator `temp` for one ladder operator, sq_operator.cc:111-126 -/
noncomputable def jwLadder (creator qubitExc : Bool) (p : ℕ) : Except Exc QubitOperator := do
  let zs ← zGates p qubitExc
  let x ← makeGate "X" p p 0
  let y ← makeGate "Y" p p 0
  let halfi : ℂ := if creator then -(0.5 * Complex.I) else 0.5 * Complex.I
  pure [(0.5, zs ++ [x]), (halfi, zs ++ [y])]

/-- `jw_helper`, sq_operator.cc:106-136 -/
noncomputable def jwHelper (holder : QubitOperator) (ops : List ℕ) (creator qubitExc : Bool) : Except Exc QubitOperator :=
  ops.foldlM (fun holder p => do
    let temp ← jwLadder creator qubitExc p
    if holder.length = 0 then pure (holder.addOp temp) else holder.operatorProduct temp true true) holder

/-- `jw_transform`, sq_operator.cc:138-169: the qubit operator, and `*this` after the call (simplified) -/
noncomputable def jwTransform (o : DescSort) (A : SQOperator) (qubitExc : Bool) : Except Exc (QubitOperator × SQOperator) := do
  let A ← A.simplify o
  let qo ← A.foldlM (fun (qo : QubitOperator) t => do
    if t.2.1.length = 0 ∧ t.2.2.length = 0 then pure (qo.addOp [(t.1, [])])
    else do
      let t1 ← jwHelper [] t.2.1 true qubitExc
      let t1 ← jwHelper t1 t.2.2 false qubitExc
      pure (qo.addOp (t1.multCoeffs t.1))) []
  let qo ← qo.simplify
  pure (qo, A)

end SQOperator
end QF
