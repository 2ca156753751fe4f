import Verif.Model.AdaptCount
import Verif.Props.AdaptExample

/-!
C110: the resource counts of ADAPT-VQE.
-/
namespace QF
namespace Adapt

open SQOperator (DescSort)
open QubitOperator (SortOracle)

/-- specification: what happened in one iteration that was not the last, converged one -/
structure Iter where
  /-- the operators and amplitudes at its end -/
  ansatz : UccAlg
  /-- the minimum found -/
  energy : ℝ
  /-- what the optimizer reported -/
  cost : SolveCost

/-- specification: the iterations from an ansatz on.  In each, operators of the pool are appended with amplitude zero and the optimizer is called. -/
inductive Iters (S : CountSolver) : UccAlg → List Iter → Prop
  | nil (B : UccAlg) : Iters S B []
  | cons {B : UccAlg} {ms : List ℕ} {x : List ℝ} {e : ℝ} {r : SolveCost} {its : List Iter} (hm : ∀ m ∈ ms, m < B.pool.length)
      (hS : S { B with tops := B.tops ++ ms, tamps := B.tamps ++ ms.map fun _ => 0 } = .ok (x, e, r)) (ht : Iters S { B with tops := B.tops ++ ms, tamps := x } its) :
      Iters S B (⟨{ B with tops := B.tops ++ ms, tamps := x }, e, r⟩ :: its)

/-- specification: the Pauli measurements of an iteration.  One gradient of the whole pool costs `Nl` times the number of Pauli terms of the pool, an energy `Nl`, an analytic
gradient of the ansatz `Nl` times the number of Pauli terms of its operators; an iteration of the Jacobi solver one energy and two per amplitude. -/
def measuresOf (E : CountEnv) (it : Iter) : ℕ :=
  match it.cost with
  | .scipy nfev njev => E.Nl * (E.Nm.sum + nfev + if E.analytic then njev.getD 0 * (it.ansatz.tops.map fun m => E.Nm.getD m 0).sum else 0)
  | .jacobi k => E.Nl * (E.Nm.sum + k * (2 * it.ansatz.tamps.length + 1))

/-- the calls of scipy among the iterations -/
def scipyOf (it : Iter) : Option (ℕ × Option ℕ) :=
  match it.cost with
  | .scipy a b => some (a, b)
  | .jacobi _ => none

/-- the lists of the object are those of the iterations -/
structure Recorded (o : DescSort) (so : SortOracle) (E : CountEnv) (its : List Iter) (c : AdaptCount) : Prop where
  energies : c.base.energies = its.map Iter.energy
  params : c.base.nParams = its.map fun it => it.ansatz.tops.length
  meas : c.meas = its.map (measuresOf E)
  cnots : List.Forall₂ (fun it n => ∃ U, it.ansatz.buildUvqc o so none = .ok U ∧ n = Circuit.getNumCnots U) its c.cnots
  results : c.results = its.filterMap scipyOf

theorem pyIndex_ok {α : Type} {l : List α} {i : ℕ} {x : α} (h : pyIndex l i = .ok x) : l[i]? = some x := by
  unfold pyIndex at h
  cases hx : l[i]? with
  | none => rw [hx] at h; cases h
  | some y => rw [hx] at h; cases h; rfl

theorem poolCost {α : Type} (Nl : ℕ) (Nm : List ℕ) (l : List α) (i a n : ℕ) (h : (l.zipIdx i).foldlM (fun n p => do let w ← pyIndex Nm p.2; pure (n + Nl * w)) a = Except.ok (ε := Exc) n) :
    n = a + Nl * ((Nm.drop i).take l.length).sum := by
  induction l generalizing i a with
  | nil => cases h; simp
  | cons x l ih =>
    rw [List.zipIdx_cons, List.foldlM_cons] at h
    cases hw : pyIndex Nm i with
    | error e => simp only [hw] at h; cases h
    | ok w =>
      simp only [hw, except_ok_bind, pure, Except.pure] at h
      have hi := pyIndex_ok hw
      obtain ⟨hlt, hget⟩ := List.getElem?_eq_some_iff.1 hi
      rw [ih (i + 1) _ h, List.drop_eq_getElem_cons hlt, List.length_cons, List.take_succ_cons, List.sum_cons, hget]
      ring

theorem topsCost (E : CountEnv) (nj : Option ℕ) (l : List ℕ) (a n : ℕ) (h : l.foldlM (fun n m => do
      let w ← pyIndex E.Nm m
      let j ← nj.elim (.error .attributeError) pure
      pure (n + w * E.Nl * j)) a = Except.ok (ε := Exc) n) :
    n = a + E.Nl * (nj.getD 0 * (l.map fun m => E.Nm.getD m 0).sum) := by
  induction l generalizing a with
  | nil => cases h; simp
  | cons m l ih =>
    rw [List.foldlM_cons] at h
    cases hw : pyIndex E.Nm m with
    | error e => simp only [hw] at h; cases h
    | ok w =>
      cases nj with
      | none => simp only [hw, except_ok_bind, Option.elim] at h; cases h
      | some j =>
        simp only [hw, except_ok_bind, Option.elim, pure, Except.pure] at h
        have := ih _ h
        rw [this]
        simp only [List.map_cons, List.sum_cons, List.getD_eq_getElem?_getD, pyIndex_ok hw, Option.getD_some]
        ring

theorem scipyCost_eq {E : CountEnv} {tops : List ℕ} {cur nfev n : ℕ} {njev : Option ℕ} (h : scipyCost E tops cur nfev njev = .ok n) :
    n = cur + E.Nl * nfev + E.Nl * (if E.analytic then njev.getD 0 * (tops.map fun m => E.Nm.getD m 0).sum else 0) := by
  unfold scipyCost at h
  by_cases ha : E.analytic = true
  · rw [if_pos ha] at h
    rw [if_pos ha]
    exact topsCost E njev tops _ n h
  · rw [if_neg ha] at h
    rw [if_neg ha]
    cases h; simp

/-- forgetting the costs -/
def erase (S : CountSolver) : Solver := fun A => (S A).map fun r => (r.1, r.2.1)

theorem updateC_inv {o : DescSort} {so : SortOracle} {E : CountEnv} {O : AdaptOpts} {c c1 : AdaptCount} (hN : E.Nm.length = c.base.ucc.pool.length)
    (h : updateAnsatzC o so E O c = .ok c1) : ∃ st, updateAnsatz o so O c.base = .ok st ∧ c1 = { c with base := st, cur := E.Nl * E.Nm.sum } := by
  unfold updateAnsatzC at h
  cases hg : c.base.ucc.measureGradient3 o so with
  | error e => rw [hg] at h; cases h
  | ok gs =>
    rw [hg, except_ok_bind] at h
    cases hf : gs.zipIdx.foldlM (fun n p => do let w ← pyIndex E.Nm p.2; pure (n + E.Nl * w)) 0 with
    | error e => rw [hf] at h; cases h
    | ok n =>
      rw [hf, except_ok_bind] at h
      cases hu : updateAnsatz o so O c.base with
      | error e => rw [hu] at h; cases h
      | ok st =>
        rw [hu, except_ok_bind] at h
        have hn := poolCost E.Nl E.Nm gs 0 0 n hf
        rw [List.drop_zero, grad3_length hg, ← hN, List.take_length, Nat.zero_add] at hn
        cases h
        exact ⟨st, rfl, by rw [hn]⟩

theorem solveC_inv {o : DescSort} {so : SortOracle} {par : Option Schedule} {S : CountSolver} {E : CountEnv} {c c1 : AdaptCount} (hcur : c.cur = E.Nl * E.Nm.sum)
    (h : solveC o so par S E c = .ok c1) : ∃ x e r U, S c.base.ucc = .ok (x, e, r) ∧ solve o so par (erase S) c.base = .ok c1.base ∧
      c1.base = { c.base with ucc := { c.base.ucc with tamps := x }, energies := c.base.energies ++ [e] } ∧
      ({ c.base.ucc with tamps := x } : UccAlg).buildUvqc o so none = .ok U ∧ c1.cnots = c.cnots ++ [Circuit.getNumCnots U] ∧
      c1.meas = c.meas ++ [measuresOf E ⟨{ c.base.ucc with tamps := x }, e, r⟩] ∧
      c1.results = c.results ++ (scipyOf ⟨{ c.base.ucc with tamps := x }, e, r⟩).toList ∧ c1.nHam = c.nHam ∧ c1.nCommut = c.nCommut := by
  unfold solveC at h
  cases h1 : c.base.ucc.energyFeval o so par c.base.ucc.tamps with
  | error e => rw [h1] at h; cases h
  | ok v =>
    rw [h1, except_ok_bind] at h
    cases h2 : S c.base.ucc with
    | error e => rw [h2] at h; cases h
    | ok q =>
      obtain ⟨x, e, r⟩ := q
      rw [h2, except_ok_bind] at h
      have hs : solve o so par (erase S) c.base = .ok { c.base with ucc := { c.base.ucc with tamps := x }, energies := c.base.energies ++ [e] } := by
        unfold solve erase
        rw [h1, h2]; rfl
      cases r with
      | scipy nfev njev =>
        dsimp only at h
        cases hk : scipyCost E c.base.ucc.tops c.cur nfev njev with
        | error e => rw [hk] at h; cases h
        | ok n =>
          rw [hk, except_ok_bind] at h
          cases hU : ({ c.base.ucc with tamps := x } : UccAlg).buildUvqc o so none with
          | error e => rw [hU] at h; cases h
          | ok U =>
            rw [hU, except_ok_bind] at h
            cases h
            refine ⟨x, e, _, U, rfl, hs, rfl, hU, rfl, ?_, rfl, rfl, rfl⟩
            rw [scipyCost_eq hk, hcur]
            simp only [measuresOf]
            congr 2
            ring
      | jacobi k =>
        dsimp only at h
        cases hU : ({ c.base.ucc with tamps := x } : UccAlg).buildUvqc o so none with
        | error e => rw [hU] at h; cases h
        | ok U =>
          rw [hU, except_ok_bind] at h
          cases h
          refine ⟨x, e, _, U, rfl, hs, rfl, hU, rfl, ?_, by simp [scipyOf], rfl, rfl⟩
          rw [hcur]
          simp only [measuresOf]
          congr 2
          ring

/-- the ansatz after the iterations -/
def finalAnsatz (B : UccAlg) (its : List Iter) : UccAlg := (its.getLast?.map Iter.ansatz).getD B

/-- what the loop leaves -/
structure LoopOut (o : DescSort) (so : SortOracle) (par : Option Schedule) (S : CountSolver) (E : CountEnv) (k : ℕ) (c c' : AdaptCount) (its0 its : List Iter) : Prop where
  recd : Recorded o so E (its0 ++ its) c'
  iters : Iters S c.base.ucc its
  ucc : c'.base.ucc = finalAnsatz c.base.ucc its
  norms : c'.base.gradNorms.length = c.base.gradNorms.length + its.length + if c'.base.converged then 1 else 0
  bound : its.length ≤ k + 1
  some : its0 ++ its ≠ []
  ham : c'.nHam = c.nHam
  commut : c'.nCommut = c.nCommut

theorem finalAnsatz_cons (B : UccAlg) (it : Iter) (its : List Iter) : finalAnsatz B (it :: its) = finalAnsatz it.ansatz its := by
  unfold finalAnsatz
  cases its with
  | nil => rfl
  | cons a l => rw [List.getLast?_cons_cons, List.getLast?_eq_some_getLast (List.cons_ne_nil a l)]; rfl

theorem loopC_out (o : DescSort) (so : SortOracle) (par : Option Schedule) (S : CountSolver) (E : CountEnv) (O : AdaptOpts) (k : ℕ) (c c' : AdaptCount) (its0 : List Iter)
    (hN : E.Nm.length = c.base.ucc.pool.length) (hR : Recorded o so E its0 c) (h : loopC o so par S E O k c = .ok c') :
    loop o so par (erase S) O k c.base = .ok c'.base ∧ ∃ its, LoopOut o so par S E k c c' its0 its := by
  induction k generalizing c its0 with
  | zero =>
    unfold loopC at h
    unfold loop
    cases h1 : updateAnsatzC o so E O c with
    | error e => rw [h1] at h; cases h
    | ok c1 =>
      rw [h1, except_ok_bind] at h
      obtain ⟨st, hu, rfl⟩ := updateC_inv hN h1
      rw [hu, except_ok_bind]
      obtain ⟨gs, hg, ⟨hn, e, hl, rfl⟩ | ⟨hn, ms, hm, rfl⟩⟩ := update_inv hu
      · rw [if_pos rfl] at h
        rw [if_pos rfl]
        cases h
        refine ⟨rfl, [], ?_, .nil _, rfl, by simp, by simp, ?_, rfl, rfl⟩
        · rw [List.append_nil]; exact ⟨hR.1, hR.2, hR.3, hR.4, hR.5⟩
        · intro h0
          rw [List.append_nil] at h0
          rw [hR.energies, h0] at hl; cases hl
      · rw [if_neg (by simp)] at h
        rw [if_neg (by simp)]
        cases h2 : solveC o so par S E { c with base := { c.base with gradNorms := c.base.gradNorms ++ [gradNorm gs], converged := false, ucc := { c.base.ucc with tops := c.base.ucc.tops ++ ms, tamps := c.base.ucc.tamps ++ ms.map fun _ => 0 }, nParams := c.base.nParams ++ [(c.base.ucc.tops ++ ms).length] }, cur := E.Nl * E.Nm.sum } with
        | error e => rw [h2] at h; cases h
        | ok c2 =>
          rw [h2, except_ok_bind] at h
          obtain ⟨x, e, r, U, hx, hs, hb, hU, e1, e2, e3, e4, e5⟩ := solveC_inv rfl h2
          rw [hs, except_ok_bind]
          have hl : c2.base.energies.getLast? = some e := by rw [hb]; simp
          simp only [hl, Option.elim, pure, Except.pure, except_ok_bind] at h ⊢
          cases h
          refine ⟨rfl, [⟨{ c.base.ucc with tops := c.base.ucc.tops ++ ms, tamps := x }, e, r⟩], ⟨?_, ?_, ?_, ?_, ?_⟩, .cons hm hx (.nil _), ?_, ?_, by simp, by simp, e4, e5⟩
          · simp [hb, hR.energies]
          · simp [hb, hR.params]
          · simp [e2, hR.meas]
          · simp only [e1]
            refine List.rel_append hR.cnots (.cons ⟨U, hU, rfl⟩ .nil)
          · simp [e3, hR.results, List.filterMap_append, List.filterMap_cons]
            cases scipyOf _ <;> rfl
          · simp [hb, finalAnsatz]
          · simp [hb]
  | succ k ih =>
    unfold loopC at h
    unfold loop
    cases h1 : updateAnsatzC o so E O c with
    | error e => rw [h1] at h; cases h
    | ok c1 =>
      rw [h1, except_ok_bind] at h
      obtain ⟨st, hu, rfl⟩ := updateC_inv hN h1
      rw [hu, except_ok_bind]
      obtain ⟨gs, hg, ⟨hn, e, hl, rfl⟩ | ⟨hn, ms, hm, rfl⟩⟩ := update_inv hu
      · rw [if_pos rfl] at h
        rw [if_pos rfl]
        cases h
        refine ⟨rfl, [], ?_, .nil _, rfl, by simp, by simp, ?_, rfl, rfl⟩
        · rw [List.append_nil]; exact ⟨hR.1, hR.2, hR.3, hR.4, hR.5⟩
        · intro h0
          rw [List.append_nil] at h0
          rw [hR.energies, h0] at hl; cases hl
      · rw [if_neg (by simp)] at h
        rw [if_neg (by simp)]
        cases h2 : solveC o so par S E { c with base := { c.base with gradNorms := c.base.gradNorms ++ [gradNorm gs], converged := false, ucc := { c.base.ucc with tops := c.base.ucc.tops ++ ms, tamps := c.base.ucc.tamps ++ ms.map fun _ => 0 }, nParams := c.base.nParams ++ [(c.base.ucc.tops ++ ms).length] }, cur := E.Nl * E.Nm.sum } with
        | error e => rw [h2] at h; cases h
        | ok c2 =>
          rw [h2, except_ok_bind] at h
          obtain ⟨x, e, r, U, hx, hs, hb, hU, e1, e2, e3, e4, e5⟩ := solveC_inv rfl h2
          rw [hs, except_ok_bind]
          have hucc : c2.base.ucc = { c.base.ucc with tops := c.base.ucc.tops ++ ms, tamps := x } := by rw [hb]
          obtain ⟨g1, its, g2⟩ := ih c2 (its0 ++ [⟨{ c.base.ucc with tops := c.base.ucc.tops ++ ms, tamps := x }, e, r⟩]) (by rw [hucc]; exact hN)
            ⟨by simp [hb, hR.energies], by simp [hb, hR.params], by simp [e2, hR.meas], by
              simp only [e1]
              exact List.rel_append hR.cnots (.cons ⟨U, hU, rfl⟩ .nil), by
              simp [e3, hR.results, List.filterMap_append, List.filterMap_cons]
              cases scipyOf _ <;> rfl⟩ h
          refine ⟨g1, ⟨{ c.base.ucc with tops := c.base.ucc.tops ++ ms, tamps := x }, e, r⟩ :: its, ?_, ?_, ?_, ?_, ?_, by simp, ?_, ?_⟩
          · have := g2.recd
            rwa [List.append_assoc, List.singleton_append] at this
          · have := g2.iters
            rw [hucc] at this
            exact .cons hm hx this
          · rw [g2.ucc, hucc, finalAnsatz_cons]
          · rw [g2.norms, hb]
            simp only [List.length_append, List.length_cons, List.length_nil]
            omega
          · simp only [List.length_cons]
            have := g2.bound
            omega
          · rw [g2.ham]; exact e4
          · rw [g2.commut]; exact e5

/-- the total of the energies evaluated by scipy -/
def totalNfev (its : List Iter) : ℕ := ((its.filterMap scipyOf).map Prod.fst).sum

/-- the gradients evaluated by scipy, the one of iteration `k` (from 1) counted `k` times -/
def weightedNjev (its : List Iter) : ℕ := ((its.filterMap scipyOf).zipIdx.map fun p => p.1.2.getD 0 * (p.2 + 1)).sum

theorem foldl_fst (l : List (ℕ × Option ℕ)) (a : ℕ) : l.foldl (fun n r => n + r.1) a = a + (l.map Prod.fst).sum := by
  induction l generalizing a with
  | nil => rfl
  | cons x l ih => rw [List.foldl_cons, ih, List.map_cons, List.sum_cons]; ring

theorem foldlM_njev (l : List ((ℕ × Option ℕ) × ℕ)) (a n : ℕ) (h : l.foldlM (fun n p => do
      let j ← p.1.2.elim (.error .attributeError) pure
      pure (n + j * (p.2 + 1))) a = Except.ok (ε := Exc) n) : n = a + (l.map fun p => p.1.2.getD 0 * (p.2 + 1)).sum := by
  induction l generalizing a with
  | nil => cases h; rfl
  | cons x l ih =>
    rw [List.foldlM_cons] at h
    obtain ⟨⟨f, nj⟩, i⟩ := x
    cases nj with
    | none => cases h
    | some j =>
      simp only [Option.elim, pure, Except.pure, except_ok_bind] at h
      rw [ih _ h, List.map_cons, List.sum_cons]
      simp only [Option.getD_some]
      ring

theorem getNumHam_eq (c : AdaptCount) : getNumHam c = (c.nHam + (c.results.map Prod.fst).sum, { c with nHam := c.nHam + (c.results.map Prod.fst).sum }) := by
  unfold getNumHam
  simp only [foldl_fst]

theorem getNumCommut_eq {E : CountEnv} {c c' : AdaptCount} {n : ℕ} (h : getNumCommut E c = .ok (n, c')) :
    n = c.nCommut + c.base.ucc.tamps.length * c.base.ucc.pool.length + (if E.analytic then (c.results.zipIdx.map fun p => p.1.2.getD 0 * (p.2 + 1)).sum else 0) ∧
      c' = { c with nCommut := n } := by
  unfold getNumCommut at h
  by_cases ha : E.analytic = true
  · simp only [if_pos ha] at h ⊢
    cases hf : c.results.zipIdx.foldlM (m := Except Exc) (fun n p => do
      let j ← p.1.2.elim (.error .attributeError) pure
      pure (n + j * (p.2 + 1))) (c.nCommut + c.base.ucc.tamps.length * c.base.ucc.pool.length) with
    | error e => rw [hf] at h; cases h
    | ok m =>
      rw [hf, except_ok_bind] at h
      cases h
      exact ⟨foldlM_njev _ _ _ hf, rfl⟩
  · simp only [if_neg ha] at h ⊢
    cases h
    exact ⟨rfl, rfl⟩

theorem table_eq {o : DescSort} {so : SortOracle} {E : CountEnv} {its : List Iter} {c : AdaptCount} (hR : Recorded o so E its c) :
    ∃ rows, table c = .ok rows ∧ rows.length = its.length ∧ ∀ (k : ℕ) row it, rows[k]? = some row → its[k]? = some it →
      row.k = k ∧ row.energy = it.energy ∧ row.params = it.ansatz.tops.length ∧ (∃ U, it.ansatz.buildUvqc o so none = .ok U ∧ row.cnots = Circuit.getNumCnots U) ∧
      row.meas = ((its.take (k + 1)).map (measuresOf E)).sum := by
  have hlen : c.cnots.length = its.length := hR.cnots.length_eq.symm
  have hf : ∀ p ∈ c.base.energies.zipIdx, p.2 < its.length := by
    intro p hp
    have := List.snd_lt_of_mem_zipIdx hp
    rw [hR.energies, List.length_map] at this
    omega
  have hrow : ∀ p ∈ c.base.energies.zipIdx, (do
      let a ← pyIndex c.base.nParams p.2
      let b ← pyIndex c.cnots p.2
      pure (⟨p.2, p.1, a, b, (c.meas.take (p.2 + 1)).sum⟩ : TableRow)) =
      Except.ok (ε := Exc) ⟨p.2, p.1, c.base.nParams.getD p.2 0, c.cnots.getD p.2 0, (c.meas.take (p.2 + 1)).sum⟩ := by
    intro p hp
    have h1 : p.2 < c.base.nParams.length := by rw [hR.params, List.length_map]; exact hf p hp
    have h2 : p.2 < c.cnots.length := by rw [hlen]; exact hf p hp
    have e1 : pyIndex c.base.nParams p.2 = .ok (c.base.nParams.getD p.2 0) := by
      unfold pyIndex
      rw [List.getD_eq_getElem?_getD, List.getElem?_eq_getElem h1]; rfl
    have e2 : pyIndex c.cnots p.2 = .ok (c.cnots.getD p.2 0) := by
      unfold pyIndex
      rw [List.getD_eq_getElem?_getD, List.getElem?_eq_getElem h2]; rfl
    rw [e1, e2]; rfl
  refine ⟨_, by unfold table; exact mapM_ok _ _ _ hrow, by simp [hR.energies], ?_⟩
  intro k row it hk hi
  obtain ⟨hlt, hget⟩ := List.getElem?_eq_some_iff.1 hi
  rw [List.getElem?_map, List.getElem?_zipIdx] at hk
  have he : c.base.energies[k]? = some it.energy := by rw [hR.energies, List.getElem?_map, hi]; rfl
  rw [he] at hk
  simp only [Option.map_some, Option.some.injEq] at hk
  subst hk
  obtain ⟨U, hU, hn⟩ := hR.cnots.get hlt (by rw [hlen]; exact hlt)
  refine ⟨by simp, rfl, ?_, ⟨U, ?_, ?_⟩, ?_⟩
  · simp [hR.params, hi]
  · rw [← hget]; exact hU
  · simp only [Nat.zero_add, List.getD_eq_getElem?_getD]
    rw [List.getElem?_eq_getElem (by rw [hlen]; exact hlt)]
    exact hn
  · simp only [Nat.zero_add, hR.meas, List.map_take]

/-- C110: the counts of a run.  `Nl` and `Nm` are the numbers of Pauli terms of the Hamiltonian and of the operators of the pool.  If `run` returns, there are iterations `its`, at
least one and at most `adapt_maxiter`, each of them appending operators and calling the optimizer, such that: the run is the run without counters; the ansatz is that of the last
iteration; the pool was scanned once in each iteration, and once more if the run converged; the table has one line for each iteration with its energy, its number of parameters, the
number of CNOT gates of the circuit of its ansatz and the measurements up to it; `_n_cnot`, `_n_classical_params` and `_n_pauli_trm_measures` are those of the last line; and the
banner shows the number of energies evaluated by scipy. -/
theorem C110_run (o : DescSort) (so : SortOracle) (par : Option Schedule) (S : CountSolver) (E : CountEnv) (O : AdaptOpts) (A : UccAlg) (hN : E.Nm.length = A.pool.length)
    (R : AdaptReport) (h : runC o so par S E O A = .ok R) :
    ∃ its, Iters S { A with tops := [], tamps := [] } its ∧ its ≠ [] ∧ its.length ≤ max 1 O.maxiter.toNat ∧
      run o so par (erase S) O A = .ok (R.obj.base, R.egs) ∧
      its.getLast?.map Iter.ansatz = some R.obj.base.ucc ∧
      R.obj.base.gradNorms.length = its.length + (if R.obj.base.converged then 1 else 0) ∧
      R.rows.length = its.length ∧
      (∀ (k : ℕ) row it, R.rows[k]? = some row → its[k]? = some it →
        row.k = k ∧ row.energy = it.energy ∧ row.params = it.ansatz.tops.length ∧ (∃ U, it.ansatz.buildUvqc o so none = .ok U ∧ row.cnots = Circuit.getNumCnots U) ∧
        row.meas = ((its.take (k + 1)).map (measuresOf E)).sum) ∧
      (∃ U, R.obj.base.ucc.buildUvqc o so none = .ok U ∧ R.nCnot = Circuit.getNumCnots U) ∧
      R.nParams = R.obj.base.ucc.tamps.length ∧ R.nMeas = (its.map (measuresOf E)).sum ∧
      R.bannerHam = totalNfev its ∧
      R.bannerCommut = R.obj.base.ucc.tamps.length * A.pool.length + (if E.analytic then weightedNjev its else 0) ∧
      R.obj.results = its.filterMap scipyOf ∧ R.obj.nHam = R.bannerHam ∧ R.obj.nCommut = R.bannerCommut := by
  unfold runC at h
  simp only at h
  cases h1 : ({ A with tops := [], tamps := [] } : UccAlg).energyFeval o so par [] with
  | error e => rw [h1] at h; cases h
  | ok e0 =>
    rw [h1, except_ok_bind] at h
    cases h2 : loopC o so par S E O (O.maxiter.toNat - 1) { base := { ucc := { A with tops := [], tamps := [] }, energies := [], gradNorms := [], converged := false, finalEnergy := none, nParams := [] } } with
    | error e => rw [h2] at h; cases h
    | ok c =>
      rw [h2, except_ok_bind] at h
      obtain ⟨hl, its, L⟩ := loopC_out o so par S E O _ _ c [] hN ⟨rfl, rfl, rfl, .nil, rfl⟩ h2
      have hR := L.recd
      rw [List.nil_append] at hR
      have hne : its ≠ [] := by simpa using L.some
      cases he : c.base.finalEnergy with
      | none => rw [he] at h; cases h
      | some e =>
        rw [he] at h
        simp only [Option.elim, pure, Except.pure, except_ok_bind] at h
        obtain ⟨rows, hr, hr1, hr2⟩ := table_eq hR
        rw [hr, except_ok_bind] at h
        cases hb : c.cnots.getLast? with
        | none => rw [hb] at h; cases h
        | some b =>
          rw [hb] at h
          simp only [Except.pure, except_ok_bind, getNumHam_eq] at h
          cases hc : getNumCommut E { c with nHam := c.nHam + (c.results.map Prod.fst).sum } with
          | error e => rw [hc] at h; cases h
          | ok q =>
            obtain ⟨m, c'⟩ := q
            rw [hc] at h
            obtain ⟨hm, rfl⟩ := getNumCommut_eq hc
            cases h
            have hpool : ∀ (B : UccAlg) (l : List Iter), Iters S B l → (finalAnsatz B l).pool = B.pool := by
              intro B l hI
              induction hI with
              | nil B => rfl
              | cons _ _ _ ih => rw [finalAnsatz_cons]; exact ih
            have hlast : its.getLast?.map Iter.ansatz = some c.base.ucc := by
              rw [L.ucc]
              unfold finalAnsatz
              rw [List.getLast?_eq_some_getLast hne]; rfl
            refine ⟨its, L.iters, hne, ?_, ?_, hlast, ?_, hr1, hr2, ?_, rfl, by simp only [hR.meas], ?_, ?_, hR.results, rfl, rfl⟩
            · have := L.bound
              omega
            · unfold run
              simp only
              rw [h1, except_ok_bind, hl, except_ok_bind, he]; rfl
            · have := L.norms
              simpa using this
            · have h3 := hR.cnots
              have h4 : ∃ pre it, its = pre ++ [it] := ⟨_, _, (List.dropLast_append_getLast hne).symm⟩
              obtain ⟨pre, it, rfl⟩ := h4
              have h5 := List.rel_reverse h3
              rw [List.reverse_append, List.reverse_singleton, List.singleton_append] at h5
              rw [← List.head?_reverse] at hb
              simp only [List.getLast?_append, List.getLast?_singleton, Option.some_or, Option.map_some, Option.some.injEq] at hlast
              generalize c.cnots.reverse = z at h5 hb
              cases h5 with
              | cons g5 g6 =>
                cases hb
                rw [← hlast]
                exact g5
            · simp only [L.ham, hR.results, totalNfev]; simp
            · simp only [hm, L.commut, hR.results, weightedNjev, L.ucc, hpool _ _ L.iters]
              simp

/-- C110: `get_num_ham_measurements` adds the total again at every call.  The banner of `run` has called it once, so that the first call of the user returns twice the number of
energies evaluated by scipy, and the `m`-th call `m + 1` times. -/
theorem C110_ham (o : DescSort) (so : SortOracle) (par : Option Schedule) (S : CountSolver) (E : CountEnv) (O : AdaptOpts) (A : UccAlg) (hN : E.Nm.length = A.pool.length)
    (R : AdaptReport) (h : runC o so par S E O A = .ok R) (m : ℕ) :
    (getNumHam ((fun c => (getNumHam c).2)^[m] R.obj)).1 = (m + 2) * R.bannerHam := by
  obtain ⟨its, _, _, _, _, _, _, _, _, _, _, _, hb, _, hres, hnh, _⟩ := C110_run o so par S E O A hN R h
  have hsum : (R.obj.results.map Prod.fst).sum = R.bannerHam := by rw [hres, hb]; rfl
  have : ∀ m, (fun c => (getNumHam c).2)^[m] R.obj = { R.obj with nHam := (m + 1) * R.bannerHam } := by
    intro m
    induction m with
    | zero => rw [Nat.zero_add, Nat.one_mul, ← hnh]; rfl
    | succ m ih =>
      rw [Function.iterate_succ_apply', ih, getNumHam_eq]
      simp only [hsum]
      congr 1
      ring
  rw [this, getNumHam_eq]
  simp only [hsum]
  ring

/-- what is asked of the optimizer for the counters: a scipy method used with analytic gradients reports the number of gradients -/
def Reports (S : CountSolver) (E : CountEnv) : Prop := ∀ B x e nfev njev, E.analytic = true → S B = .ok (x, e, .scipy nfev njev) → njev ≠ none

theorem foldlM_total {α β : Type} {f : α → β → Except Exc α} (l : List β) (h : ∀ a, ∀ b ∈ l, ∃ r, f a b = .ok r) (a : α) : ∃ r, l.foldlM f a = .ok r := by
  induction l generalizing a with
  | nil => exact ⟨a, rfl⟩
  | cons b l ih =>
    obtain ⟨r, hr⟩ := h a b List.mem_cons_self
    rw [List.foldlM_cons, hr, except_ok_bind]
    exact ih (fun a b hb => h a b (List.mem_cons_of_mem _ hb)) r

theorem pyIndex_total {α : Type} {l : List α} {i : ℕ} (h : i < l.length) : ∃ x, pyIndex l i = .ok x := by
  unfold pyIndex
  rw [List.getElem?_eq_getElem h]
  exact ⟨_, rfl⟩

theorem updateC_total {o : DescSort} {so : SortOracle} {E : CountEnv} {O : AdaptOpts} {c : AdaptCount} {st : AdaptState} (hN : E.Nm.length = c.base.ucc.pool.length)
    (h : updateAnsatz o so O c.base = .ok st) : ∃ c1, updateAnsatzC o so E O c = .ok c1 := by
  obtain ⟨gs, hg, _⟩ := update_inv h
  obtain ⟨n, hn⟩ := foldlM_total (f := fun n p => do let w ← pyIndex E.Nm p.2; pure (n + E.Nl * w)) gs.zipIdx (by
    intro a p hp
    have := List.snd_lt_of_mem_zipIdx hp
    rw [grad3_length hg, ← hN, Nat.add_zero] at this
    obtain ⟨w, hw⟩ := pyIndex_total this
    exact ⟨_, by simp only [hw, except_ok_bind]; rfl⟩) 0
  unfold updateAnsatzC
  rw [hg, except_ok_bind, hn, except_ok_bind, h]
  exact ⟨_, rfl⟩

theorem solveC_total {o : DescSort} {so : SortOracle} {par : Option Schedule} {S : CountSolver} (hS : Contract o so par (erase S)) {E : CountEnv} (hr : Reports S E) {c : AdaptCount}
    {st : AdaptState} (ht : ∀ m ∈ c.base.ucc.tops, m < E.Nm.length) (h : solve o so par (erase S) c.base = .ok st) : ∃ c1, solveC o so par S E c = .ok c1 := by
  unfold solve at h
  unfold solveC
  cases h1 : c.base.ucc.energyFeval o so par c.base.ucc.tamps with
  | error e => rw [h1] at h; cases h
  | ok v =>
    rw [h1, except_ok_bind] at h
    rw [except_ok_bind]
    cases h2 : S c.base.ucc with
    | error e =>
      have : erase S c.base.ucc = .error e := by unfold erase; rw [h2]; rfl
      rw [this] at h; cases h
    | ok q =>
      obtain ⟨x, e, r⟩ := q
      have h3 : erase S c.base.ucc = .ok (x, e) := by unfold erase; rw [h2]; rfl
      obtain ⟨_, h4, _⟩ := hS _ _ _ h3
      have hU : ∃ U, ({ c.base.ucc with tamps := x } : UccAlg).buildUvqc o so none = .ok U := by
        unfold UccAlg.energyFeval at h4
        cases h5 : c.base.ucc.buildUvqc o so (some x) with
        | error e => rw [h5] at h4; cases h4
        | ok U => exact ⟨U, h5⟩
      obtain ⟨U, hU⟩ := hU
      rw [except_ok_bind]
      cases r with
      | scipy nfev njev =>
        have : ∃ n, scipyCost E c.base.ucc.tops c.cur nfev njev = .ok n := by
          unfold scipyCost
          by_cases ha : E.analytic = true
          · rw [if_pos ha]
            refine foldlM_total _ (fun a m hm => ?_) _
            obtain ⟨w, hw⟩ := pyIndex_total (ht m hm)
            cases njev with
            | none => exact absurd rfl (hr _ _ _ _ _ ha h2)
            | some j => exact ⟨_, by simp only [hw, except_ok_bind, Option.elim]; rfl⟩
          · rw [if_neg ha]; exact ⟨_, rfl⟩
        obtain ⟨n, hn⟩ := this
        dsimp only
        rw [hn, except_ok_bind, hU]
        exact ⟨_, rfl⟩
      | jacobi k =>
        dsimp only
        rw [hU]
        exact ⟨_, rfl⟩

theorem loopC_total (o : DescSort) (so : SortOracle) (par : Option Schedule) (S : CountSolver) (hS : Contract o so par (erase S)) (E : CountEnv) (hr : Reports S E) (O : AdaptOpts)
    (k : ℕ) (c : AdaptCount) (st' : AdaptState) (hN : E.Nm.length = c.base.ucc.pool.length) (ht : ∀ m ∈ c.base.ucc.tops, m < E.Nm.length)
    (h : loop o so par (erase S) O k c.base = .ok st') : ∃ c', loopC o so par S E O k c = .ok c' := by
  induction k generalizing c with
  | zero =>
    unfold loop at h
    unfold loopC
    cases h1 : updateAnsatz o so O c.base with
    | error e => rw [h1] at h; cases h
    | ok st1 =>
      rw [h1, except_ok_bind] at h
      obtain ⟨c1, hc1⟩ := updateC_total hN h1
      obtain ⟨st, hu, rfl⟩ := updateC_inv hN hc1
      have : st = st1 := by rw [h1] at hu; cases hu; rfl
      subst this
      rw [hc1, except_ok_bind]
      by_cases hcv : st.converged = true
      · rw [if_pos hcv]; exact ⟨_, rfl⟩
      · rw [if_neg hcv] at h
        rw [if_neg hcv]
        obtain ⟨gs, _, ⟨_, e, _, rfl⟩ | ⟨_, ms, hm, rfl⟩⟩ := update_inv h1
        · exact absurd rfl hcv
        · cases h2 : solve o so par (erase S) { c.base with gradNorms := c.base.gradNorms ++ [gradNorm gs], converged := false, ucc := { c.base.ucc with tops := c.base.ucc.tops ++ ms, tamps := c.base.ucc.tamps ++ ms.map fun _ => 0 }, nParams := c.base.nParams ++ [(c.base.ucc.tops ++ ms).length] } with
          | error e => rw [h2] at h; cases h
          | ok st2 =>
            obtain ⟨c2, hc2⟩ := solveC_total (c := { c with base := { c.base with gradNorms := c.base.gradNorms ++ [gradNorm gs], converged := false, ucc := { c.base.ucc with tops := c.base.ucc.tops ++ ms, tamps := c.base.ucc.tamps ++ ms.map fun _ => 0 }, nParams := c.base.nParams ++ [(c.base.ucc.tops ++ ms).length] }, cur := E.Nl * E.Nm.sum }) hS hr (by
                intro m hmm
                rcases List.mem_append.1 hmm with hmm | hmm
                · exact ht m hmm
                · rw [hN]; exact hm m hmm) h2
            rw [hc2, except_ok_bind]
            obtain ⟨x, e, r, U, _, _, hb, _⟩ := solveC_inv rfl hc2
            have hl : c2.base.energies.getLast? = some e := by rw [hb]; simp
            simp only [hl]
            exact ⟨_, rfl⟩
  | succ k ih =>
    unfold loop at h
    unfold loopC
    cases h1 : updateAnsatz o so O c.base with
    | error e => rw [h1] at h; cases h
    | ok st1 =>
      rw [h1, except_ok_bind] at h
      obtain ⟨c1, hc1⟩ := updateC_total hN h1
      obtain ⟨st, hu, rfl⟩ := updateC_inv hN hc1
      have : st = st1 := by rw [h1] at hu; cases hu; rfl
      subst this
      rw [hc1, except_ok_bind]
      by_cases hcv : st.converged = true
      · rw [if_pos hcv]; exact ⟨_, rfl⟩
      · rw [if_neg hcv] at h
        rw [if_neg hcv]
        obtain ⟨gs, _, ⟨_, e, _, rfl⟩ | ⟨_, ms, hm, rfl⟩⟩ := update_inv h1
        · exact absurd rfl hcv
        · cases h2 : solve o so par (erase S) { c.base with gradNorms := c.base.gradNorms ++ [gradNorm gs], converged := false, ucc := { c.base.ucc with tops := c.base.ucc.tops ++ ms, tamps := c.base.ucc.tamps ++ ms.map fun _ => 0 }, nParams := c.base.nParams ++ [(c.base.ucc.tops ++ ms).length] } with
          | error e => rw [h2] at h; cases h
          | ok st2 =>
            have htops : ∀ m ∈ c.base.ucc.tops ++ ms, m < E.Nm.length := by
              intro m hmm
              rcases List.mem_append.1 hmm with hmm | hmm
              · exact ht m hmm
              · rw [hN]; exact hm m hmm
            obtain ⟨c2, hc2⟩ := solveC_total (c := { c with base := { c.base with gradNorms := c.base.gradNorms ++ [gradNorm gs], converged := false, ucc := { c.base.ucc with tops := c.base.ucc.tops ++ ms, tamps := c.base.ucc.tamps ++ ms.map fun _ => 0 }, nParams := c.base.nParams ++ [(c.base.ucc.tops ++ ms).length] }, cur := E.Nl * E.Nm.sum }) hS hr htops h2
            rw [hc2, except_ok_bind]
            obtain ⟨x, e, r, U, _, hs, hb, _⟩ := solveC_inv rfl hc2
            rw [hs, except_ok_bind] at h
            exact ih c2 (by rw [hb]; exact hN) (by rw [hb]; exact htops) h

/-- C110: the counters never make a run fail.  If the run without counters returns, with an optimizer that keeps its contract and reports the number of gradients, the run with
counters returns. -/
theorem C110_returns (o : DescSort) (so : SortOracle) (par : Option Schedule) (S : CountSolver) (hS : Contract o so par (erase S)) (E : CountEnv) (hr : Reports S E) (O : AdaptOpts)
    (A : UccAlg) (hN : E.Nm.length = A.pool.length) (r : AdaptState × ℝ) (h : run o so par (erase S) O A = .ok r) : ∃ R, runC o so par S E O A = .ok R := by
  unfold run at h
  unfold runC
  simp only at h ⊢
  cases h1 : ({ A with tops := [], tamps := [] } : UccAlg).energyFeval o so par [] with
  | error e => rw [h1] at h; cases h
  | ok e0 =>
    rw [h1, except_ok_bind] at h
    rw [except_ok_bind]
    cases h2 : loop o so par (erase S) O (O.maxiter.toNat - 1) { ucc := { A with tops := [], tamps := [] }, energies := [], gradNorms := [], converged := false, finalEnergy := none, nParams := [] } with
    | error e => rw [h2] at h; cases h
    | ok st1 =>
      rw [h2, except_ok_bind] at h
      obtain ⟨c, hc⟩ := loopC_total o so par S hS E hr O (O.maxiter.toNat - 1) { base := { ucc := { A with tops := [], tamps := [] }, energies := [], gradNorms := [], converged := false, finalEnergy := none, nParams := [] } } st1 hN (by simp) h2
      obtain ⟨hl, its, L⟩ := loopC_out o so par S E O _ _ c [] hN ⟨rfl, rfl, rfl, .nil, rfl⟩ hc
      have hb : c.base = st1 := by
        have := hl.symm.trans h2
        cases this; rfl
      have hR := L.recd
      rw [List.nil_append] at hR
      have hne : its ≠ [] := by simpa using L.some
      rw [hc, except_ok_bind, hb]
      cases he : st1.finalEnergy with
      | none => rw [he] at h; cases h
      | some e =>
        obtain ⟨rows, hrows, _⟩ := table_eq hR
        have hcn : c.cnots ≠ [] := by
          intro h0
          have := hR.cnots
          rw [h0] at this
          cases this
          exact hne rfl
        have hcm : ∃ q, getNumCommut E (getNumHam c).2 = .ok q := by
          unfold getNumCommut
          by_cases ha : E.analytic = true
          · simp only [if_pos ha]
            obtain ⟨n, hn⟩ := foldlM_total (f := fun n (p : (ℕ × Option ℕ) × ℕ) => do
                let j ← p.1.2.elim (.error .attributeError) pure
                pure (n + j * (p.2 + 1))) (getNumHam c).2.results.zipIdx (by
              intro a p hp
              have hp1 : p.1 ∈ (getNumHam c).2.results := by
                obtain ⟨x, i⟩ := p
                exact (List.mem_zipIdx' hp).2 ▸ List.getElem_mem _
              have hp2 : p.1 ∈ its.filterMap scipyOf := by rw [← hR.results]; exact hp1
              obtain ⟨it, hit, hs⟩ := List.mem_filterMap.1 hp2
              have hj : ∀ (B : UccAlg) (l : List Iter), Iters S B l → ∀ it ∈ l, ∀ q, scipyOf it = some q → q.2 ≠ none := by
                intro B l hI
                induction hI with
                | nil B => simp
                | @cons B ms x e r its hm hx _ ih =>
                  intro it hit q hq
                  rcases List.mem_cons.1 hit with rfl | hit
                  · cases r with
                    | scipy a b =>
                      cases hq
                      exact hr _ _ _ _ _ ha hx
                    | jacobi k => cases hq
                  · exact ih it hit q hq
              cases hjj : p.1.2 with
              | none => exact absurd hjj (hj _ _ L.iters it hit _ hs)
              | some j => exact ⟨_, rfl⟩) (((getNumHam c).2.nCommut + (getNumHam c).2.base.ucc.tamps.length * (getNumHam c).2.base.ucc.pool.length))
            rw [hn]
            exact ⟨_, rfl⟩
          · simp only [if_neg ha]
            exact ⟨_, rfl⟩
        obtain ⟨q, hq⟩ := hcm
        rw [hrows, List.getLast?_eq_some_getLast hcn]
        simp only [Option.elim, pure, Except.pure, except_ok_bind]
        rw [hq]
        exact ⟨_, rfl⟩

theorem update_one {o : DescSort} {so : SortOracle} {O : AdaptOpts} (hc : O.cumulative = false) (he : O.addEquiv = false) {st st1 : AdaptState}
    (h : updateAnsatz o so O st = .ok st1) (hv : st1.converged = false) : ∃ m g, st1 = { st with
      gradNorms := st.gradNorms ++ [g]
      converged := false
      ucc := { st.ucc with tops := st.ucc.tops ++ [m], tamps := st.ucc.tamps ++ [0] }
      nParams := st.nParams ++ [st.ucc.tops.length + 1] } := by
  cases hg : st.ucc.measureGradient3 o so with
  | error e =>
    unfold updateAnsatz at h
    rw [hg] at h; cases h
  | ok gs =>
    by_cases hn : gradNorm gs < |O.thresh|
    · rw [C85_converged o so O st gs hg hn] at h
      cases he : st.energies.getLast? with
      | none => rw [he] at h; cases h
      | some e => rw [he] at h; cases h; cases hv
    · obtain ⟨s, h1, h2⟩ := scan_ok gs
      rw [update_eq hg h1 (not_lt.1 hn)] at h
      unfold newOps at h
      rw [hc, he] at h
      simp only [Bool.false_eq_true, if_false] at h
      cases hs : s.idx with
      | none => rw [hs] at h; cases h
      | some m =>
        rw [hs] at h
        cases h
        exact ⟨m, gradNorm gs, by simp⟩

/-- with one operator per iteration there are as many operators as iterations -/
theorem loop_one (o : DescSort) (so : SortOracle) (par : Option Schedule) (S : Solver) (hS : ∀ B x e, S B = .ok (x, e) → x.length = B.tamps.length) (O : AdaptOpts)
    (hc : O.cumulative = false) (he : O.addEquiv = false) (k : ℕ) (st st' : AdaptState) (hl : st.ucc.tamps.length = st.energies.length) (h : loop o so par S O k st = .ok st') :
    st'.ucc.tamps.length = st'.energies.length := by
  have step : ∀ st st1 st2 : AdaptState, st.ucc.tamps.length = st.energies.length → updateAnsatz o so O st = .ok st1 → ¬ st1.converged = true → solve o so par S st1 = .ok st2 →
      st2.ucc.tamps.length = st2.energies.length := by
    intro st st1 st2 hl h1 h2 h3
    obtain ⟨m, g, rfl⟩ := update_one hc he h1 (by simpa using h2)
    obtain ⟨x, e, hx, rfl⟩ := solve_inv h3
    have := hS _ _ _ hx
    simp only [List.length_append, List.length_singleton] at this ⊢
    omega
  have conv : ∀ st st1 : AdaptState, st.ucc.tamps.length = st.energies.length → updateAnsatz o so O st = .ok st1 → st1.converged = true →
      st1.ucc.tamps.length = st1.energies.length := by
    intro st st1 hl h1 h2
    obtain ⟨gs, _, ⟨_, e, _, rfl⟩ | ⟨_, ms, hm, rfl⟩⟩ := update_inv h1
    · exact hl
    · cases h2
  induction k generalizing st with
  | zero =>
    unfold loop at h
    cases h1 : updateAnsatz o so O st with
    | error e => rw [h1] at h; cases h
    | ok st1 =>
      rw [h1, except_ok_bind] at h
      by_cases hv : st1.converged = true
      · rw [if_pos hv] at h
        cases h
        exact conv _ _ hl h1 hv
      · rw [if_neg hv] at h
        cases h2 : solve o so par S st1 with
        | error e => rw [h2] at h; cases h
        | ok st2 =>
          rw [h2, except_ok_bind] at h
          have := step _ _ _ hl h1 hv h2
          cases h3 : st2.energies.getLast? with
          | none => rw [h3] at h; cases h
          | some e => rw [h3] at h; cases h; exact this
  | succ k ih =>
    unfold loop at h
    cases h1 : updateAnsatz o so O st with
    | error e => rw [h1] at h; cases h
    | ok st1 =>
      rw [h1, except_ok_bind] at h
      by_cases hv : st1.converged = true
      · rw [if_pos hv] at h
        cases h
        exact conv _ _ hl h1 hv
      · rw [if_neg hv] at h
        cases h2 : solve o so par S st1 with
        | error e => rw [h2] at h; cases h
        | ok st2 =>
          rw [h2, except_ok_bind] at h
          exact ih st2 (step _ _ _ hl h1 hv h2) h

/-- C110: the commutator measurements of the banner.  With one operator per iteration, and an optimizer that returns as many parameters as it is given, the number shown is the
size of the pool for every scan of the pool but the last one of a run that converged, and for analytic gradients the number of parameters of the iteration for every gradient. -/
theorem C110_commut (o : DescSort) (so : SortOracle) (par : Option Schedule) (S : CountSolver) (hS : ∀ B x e r, S B = .ok (x, e, r) → x.length = B.tamps.length) (E : CountEnv)
    (O : AdaptOpts) (hc : O.cumulative = false) (he : O.addEquiv = false) (A : UccAlg) (hN : E.Nm.length = A.pool.length) (R : AdaptReport)
    (h : runC o so par S E O A = .ok R) :
    ∃ its, Iters S { A with tops := [], tamps := [] } its ∧ R.obj.base.gradNorms.length = its.length + (if R.obj.base.converged then 1 else 0) ∧
      R.bannerCommut = its.length * A.pool.length + (if E.analytic then weightedNjev its else 0) := by
  obtain ⟨its, h1, h2, h3, h4, h5, h6, h7, h8, h9, h10, h11, h12, h13, h14, h15, h16⟩ := C110_run o so par S E O A hN R h
  refine ⟨its, h1, h6, ?_⟩
  have hlen : R.obj.base.ucc.tamps.length = R.obj.base.energies.length := by
    unfold run at h4
    simp only at h4
    cases a1 : ({ A with tops := [], tamps := [] } : UccAlg).energyFeval o so par [] with
    | error e => rw [a1] at h4; cases h4
    | ok e0 =>
      rw [a1, except_ok_bind] at h4
      cases a2 : loop o so par (erase S) O (O.maxiter.toNat - 1) { ucc := { A with tops := [], tamps := [] }, energies := [], gradNorms := [], converged := false, finalEnergy := none, nParams := [] } with
      | error e => rw [a2] at h4; cases h4
      | ok st1 =>
        have := loop_one o so par (erase S) (by
          intro B x e hx
          unfold erase at hx
          cases hB : S B with
          | error e => rw [hB] at hx; cases hx
          | ok q => rw [hB] at hx; cases hx; exact hS B _ _ _ hB) O hc he _ _ _ rfl a2
        rw [a2, except_ok_bind] at h4
        cases a3 : st1.finalEnergy with
        | none => rw [a3] at h4; cases h4
        | some e =>
          rw [a3] at h4
          have h4' := Except.ok.inj h4
          have : st1 = R.obj.base := (Prod.ext_iff.1 h4').1
          rw [← this]; assumption
  have hen : R.obj.base.energies.length = its.length := by
    have hrows : R.rows.length = R.obj.base.energies.length := ?_
    · rw [← hrows, h7]
    · unfold runC at h
      simp only at h
      cases a1 : ({ A with tops := [], tamps := [] } : UccAlg).energyFeval o so par [] with
      | error e => rw [a1] at h; cases h
      | ok e0 =>
        rw [a1, except_ok_bind] at h
        cases a2 : loopC o so par S E O (O.maxiter.toNat - 1) { base := { ucc := { A with tops := [], tamps := [] }, energies := [], gradNorms := [], converged := false, finalEnergy := none, nParams := [] } } with
        | error e => rw [a2] at h; cases h
        | ok c =>
          rw [a2, except_ok_bind] at h
          cases a3 : c.base.finalEnergy with
          | none => rw [a3] at h; cases h
          | some e =>
            rw [a3] at h
            simp only [Option.elim, pure, Except.pure, except_ok_bind] at h
            cases a4 : table c with
            | error e => rw [a4] at h; cases h
            | ok rows =>
              rw [a4, except_ok_bind] at h
              cases hb : c.cnots.getLast? with
              | none => rw [hb] at h; cases h
              | some b =>
                rw [hb] at h
                simp only [Except.pure, except_ok_bind, getNumHam_eq] at h
                cases hq : getNumCommut E { c with nHam := c.nHam + (c.results.map Prod.fst).sum } with
                | error e => rw [hq] at h; cases h
                | ok q =>
                  obtain ⟨m, c'⟩ := q
                  rw [hq] at h
                  obtain ⟨_, rfl⟩ := getNumCommut_eq hq
                  cases h
                  have := mapM_length a4
                  rw [this]; simp
  rw [h13, hlen, hen]

/-- C110: a run that satisfies the hypotheses: `hopAlg` with an optimizer that stays where it starts and reports one energy and one gradient. -/
theorem C110_example (o : DescSort) (so : SortOracle) : ∃ (S : CountSolver) (E : CountEnv) (R : AdaptReport), E.Nm.length = hopAlg.pool.length ∧ E.analytic = true ∧
    Contract o so none (erase S) ∧ Reports S E ∧ runC o so none S E {} hopAlg = .ok R ∧ 1 ≤ R.bannerHam := by
  obtain ⟨_, _, _, _, S, hS, r, hr⟩ := C85_example o so
  have her : erase (fun A => (S A).map fun q => (q.1, q.2, SolveCost.scipy 1 (some 1))) = S := by
    funext A
    unfold erase
    simp only
    cases S A <;> rfl
  have hrep : Reports (fun A => (S A).map fun q => (q.1, q.2, SolveCost.scipy 1 (some 1))) ⟨1, [2], true⟩ := by
    intro B x e a b _ h
    cases hB : S B with
    | error e => simp only [hB] at h; cases h
    | ok q => simp only [hB] at h; cases h; simp
  obtain ⟨R, hR⟩ := C110_returns o so none (fun A => (S A).map fun q => (q.1, q.2, SolveCost.scipy 1 (some 1))) (by rw [her]; exact hS) ⟨1, [2], true⟩ hrep {} hopAlg rfl r
    (by rw [her]; exact hr)
  refine ⟨_, _, R, rfl, rfl, by rw [her]; exact hS, hrep, hR, ?_⟩
  obtain ⟨its, h1, h2, _, _, _, _, _, _, _, _, _, h12, _⟩ := C110_run o so none _ _ {} hopAlg rfl R hR
  rw [h12]
  cases h1 with
  | nil => exact absurd rfl h2
  | @cons _ ms x e r its hm hx ht =>
    cases hB : S { ({ hopAlg with tops := [], tamps := [] } : UccAlg) with tops := [] ++ ms, tamps := [] ++ ms.map fun _ => 0 } with
    | error e => simp only [hB] at hx; cases hx
    | ok q =>
      simp only [hB] at hx
      cases hx
      simp [totalNfev, scipyOf]

end Adapt
end QF
