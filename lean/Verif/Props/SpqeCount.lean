import Verif.Model.SpqeCount
import Verif.Props.JacobiCount
import Verif.Props.SpqeExample

/-!
C113: the resource counts reported by SPQE.
-/
namespace QF
namespace Spqe

open SQOperator (DescSort)
open QubitOperator (SortOracle)

/-- one macro-iteration: the selected ansatz with its starting amplitudes, the ansatz with the amplitudes found, the energy, the number of iterations of the solver and the number of residual
vectors it evaluated -/
structure Iter where
  start : PqeAlg
  final : PqeAlg
  energy : ℝ
  k : ℕ
  evals : ℕ

/-- the solver made `it.final` from `it.start` -/
def Solved (o : DescSort) (so : SortOracle) (par : Option Schedule) (X : Ext) (S : ScipyCount) (O : Opts) (d : List (ℕ × ℕ)) (it : Iter) : Prop :=
  it.final = { it.start with tamps := it.final.tamps } ∧
  ((O.optimizer = "jacobi" ∧ jacobiSolver (jacobiEnv o so par X O it.start d) it.start.tamps = .ok (it.final.tamps, it.energy, it.k) ∧ it.evals = it.k) ∨
    (O.optimizer ∈ ["nelder-mead", "powell", "bfgs", "l-bfgs-b", "cg", "slsqp"] ∧ S it.start = .ok (it.final.tamps, it.k, it.evals) ∧
      it.start.energyFeval o so par it.final.tamps = .ok it.energy))

/-- the measurements of an iteration: for each step of the solver `Nl` terms at twice the number of amplitudes plus one points -/
def measuresOf (Nl : ℕ) (it : Iter) : ℕ := Nl * it.k * (2 * it.final.tamps.length + 1)

/-- the optimizer returns as many amplitudes as there were -/
def KeepsLength (S : ScipyCount) : Prop := ∀ A x k n, S A = .ok (x, k, n) → x.length = A.tamps.length

/-- what `update_ansatz` leaves alone -/
structure Upd (st st' : State) : Prop where
  energies : st'.energies = st.energies
  toPool : st'.toPool = st.toPool
  iter : st'.iter = st.iter
  sized : st.alg.tamps.length = st.alg.tops.length → st'.alg.tamps.length = st'.alg.tops.length
  yes : st'.converged = true → st'.nParams = st.nParams ∧ st'.alg = st.alg
  no : st'.converged = false → st'.nParams = st.nParams ++ [st'.alg.tops.length]

theorem foldl_insert_len (l : List ℕ) (A : PqeAlg) (h : A.tamps.length = A.tops.length) : (l.foldl insertOp A).tamps.length = (l.foldl insertOp A).tops.length := by
  induction l generalizing A with
  | nil => exact h
  | cons m l ih => exact ih (insertOp A m) (by simp [insertOp, h])

theorem selSingle_keeps (d : List (ℕ × ℕ)) (l : List (ℝ × ℕ)) (st st' : State) (h : selSingle d st l = .ok st') :
    st' = { st with alg := st'.alg, nbody := st'.nbody } ∧ (st.alg.tamps.length = st.alg.tops.length → st'.alg.tamps.length = st'.alg.tops.length) := by
  induction l with
  | nil => cases h; exact ⟨rfl, id⟩
  | cons p l ih =>
    unfold selSingle at h
    obtain ⟨m, -, h⟩ := bindOk h
    by_cases hm : m ∉ st.alg.tops
    · rw [if_pos hm] at h
      obtain ⟨nb, -, h⟩ := bindOk h
      cases h
      exact ⟨rfl, fun e => by simp [insertOp, e]⟩
    · rw [if_neg hm] at h; exact ih h

theorem sample_keeps (l : List ℕ) (st st' : State) (h : l.foldlM sampleStep st = .ok st') :
    st' = { st with alg := st'.alg, nbody := st'.nbody } ∧ (st.alg.tamps.length = st.alg.tops.length → st'.alg.tamps.length = st'.alg.tops.length) := by
  induction l generalizing st with
  | nil => cases h; exact ⟨rfl, id⟩
  | cons m l ih =>
    rw [List.foldlM_cons] at h
    obtain ⟨s1, h1, h⟩ := bindOk h
    obtain ⟨e1, e2⟩ := ih s1 h
    have : s1 = { st with alg := s1.alg, nbody := s1.nbody } ∧ (st.alg.tamps.length = st.alg.tops.length → s1.alg.tamps.length = s1.alg.tops.length) := by
      unfold sampleStep at h1
      by_cases hm : m ∉ st.alg.tops
      · rw [if_pos hm] at h1
        obtain ⟨i, -, h1⟩ := bindOk h1
        obtain ⟨nb, -, h1⟩ := bindOk h1
        cases h1
        exact ⟨rfl, fun e => by simp [insertOp, e]⟩
      · rw [if_neg hm] at h1; cases h1; exact ⟨rfl, id⟩
    refine ⟨?_, fun e => e2 (this.2 e)⟩
    rw [e1, this.1]

theorem conv_keeps (O : Opts) (st : State) : convStatus O st = { st with converged := (convStatus O st).converged, stop := (convStatus O st).stop } := by
  unfold convStatus
  split_ifs <;> rfl

theorem updated (o : DescSort) (so : SortOracle) (par : Option Schedule) (X : Ext) (O : Opts) (eiH : Circuit) (st st' : State)
    (h : updateAnsatz o so par X O eiH st = .ok st') : Upd st st' := by
  unfold updateAnsatz at h
  cases hO : O.omega with
  | none =>
    rw [hO] at h
    dsimp only at h
    unfold updateInf at h
    obtain ⟨_, -, h⟩ := bindOk h
    obtain ⟨coeffs, -, h⟩ := bindOk h
    obtain ⟨rs, -, h⟩ := bindOk h
    dsimp only at h
    have hk := conv_keeps O { st with resNorm := (rs.map Prod.fst).sum / (O.dt * O.dt) }
    generalize convStatus O { st with resNorm := (rs.map Prod.fst).sum / (O.dt * O.dt) } = s1 at h hk
    cases hc : s1.converged with
    | true =>
      rw [if_pos hc] at h
      cases h
      rw [hk] at hc ⊢
      exact ⟨rfl, rfl, rfl, id, fun _ => ⟨rfl, rfl⟩, fun e => by simp only at e hc; rw [hc] at e; cases e⟩
    | false =>
      rw [if_neg (by simp [hc])] at h
      obtain ⟨s2, h2, h⟩ := bindOk h
      cases h
      have hs2 : s2 = { s1 with alg := s2.alg, nbody := s2.nbody } ∧ (s1.alg.tamps.length = s1.alg.tops.length → s2.alg.tamps.length = s2.alg.tops.length) := by
        cases hcu : O.cumulative with
        | true =>
          rw [hcu, if_pos rfl] at h2
          obtain ⟨s, -, h2⟩ := bindOk h2
          cases h2
          exact ⟨rfl, fun e => foldl_insert_len _ _ e⟩
        | false =>
          rw [hcu, if_neg (by simp)] at h2
          exact selSingle_keeps _ _ _ _ h2
      obtain ⟨e1, e2⟩ := hs2
      have a1 : s2.energies = st.energies := by rw [e1, hk]
      have a2 : s2.toPool = st.toPool := by rw [e1, hk]
      have a3 : s2.iter = st.iter := by rw [e1, hk]
      have a4 : s2.converged = false := by rw [e1]; exact hc
      have a5 : s2.nParams = st.nParams := by rw [e1, hk]
      have a6 : s1.alg = st.alg := by rw [hk]
      rw [a6] at e2
      exact ⟨a1, a2, a3, e2, fun e => absurd (a4.symm.trans e) (by simp), fun _ => by simp only [a5]⟩
  | some M =>
    rw [hO] at h
    dsimp only at h
    unfold updateSampled at h
    obtain ⟨_, -, h⟩ := bindOk h
    obtain ⟨coeffs, -, h⟩ := bindOk h
    obtain ⟨dets, -, h⟩ := bindOk h
    by_cases hM : M = 0
    · rw [if_pos hM] at h; cases h
    rw [if_neg hM] at h
    dsimp only at h
    split at h
    · obtain ⟨_, -, h⟩ := bindOk h
      obtain ⟨_, -, h⟩ := bindOk h
      cases h
      exact ⟨rfl, rfl, rfl, id, fun _ => ⟨rfl, rfl⟩, fun e => by cases e⟩
    · obtain ⟨s2, h2, h⟩ := bindOk h
      cases h
      obtain ⟨e1, e2⟩ := sample_keeps _ _ _ h2
      have a1 : s2.energies = st.energies := by rw [e1]
      have a2 : s2.toPool = st.toPool := by rw [e1]
      have a3 : s2.iter = st.iter := by rw [e1]
      have a4 : s2.converged = false := by rw [e1]
      have a5 : s2.nParams = st.nParams := by rw [e1]
      exact ⟨a1, a2, a3, e2, fun e => absurd (a4.symm.trans e) (by simp), fun _ => by simp only [a5]⟩

theorem jacobiEnv_erase (o : DescSort) (so : SortOracle) (par : Option Schedule) (X : Ext) (S : ScipyCount) (O : Opts) (A : PqeAlg) (d : List (ℕ × ℕ)) :
    jacobiEnv o so par (eraseC X S) O A d = jacobiEnv o so par X O A d := rfl

theorem solveC_ok {o : DescSort} {so : SortOracle} {par : Option Schedule} {X : Ext} {S : ScipyCount} (hS : KeepsLength S) {Nl : ℕ} {O : Opts} {c c' : Count}
    (hl : c.base.alg.tamps.length = c.base.alg.tops.length) (h : solveC o so par X S Nl O c = .ok c') :
    ∃ it U, Solved o so par X S O c.base.toPool it ∧ it.start = c.base.alg ∧ it.final.buildUvqc o so none = .ok U ∧ it.final.tamps.length = it.final.tops.length ∧
      c' = { c with base := { c.base with alg := it.final, energies := c.base.energies ++ [it.energy] }, vecs := c.vecs + it.evals, elems := c.elems + it.evals * it.final.tops.length, measK := c.measK + measuresOf Nl it, meas := c.meas ++ [c.measK + measuresOf Nl it], cnots := c.cnots ++ [Circuit.getNumCnots U] } ∧
      solve o so par (eraseC X S) O c.base = .ok c'.base := by
  unfold solveC at h
  dsimp only at h
  obtain ⟨⟨x, e, k, nv, ne⟩, h1, h⟩ := bindOk h
  dsimp only at h
  obtain ⟨U, h2, h⟩ := bindOk h
  cases h
  by_cases hj : O.optimizer = "jacobi"
  · rw [if_pos hj, C111_jacobi] at h1
    cases hJ : jacobiSolver (jacobiEnv o so par X O c.base.alg c.base.toPool) c.base.alg.tamps with
    | error e => rw [hJ] at h1; cases h1
    | ok r =>
      obtain ⟨x', e', k'⟩ := r
      rw [hJ] at h1
      have hx := C75_length _ _ _ _ _ hJ
      cases h1
      refine ⟨⟨c.base.alg, { c.base.alg with tamps := x' }, e', k', k'⟩, U, ⟨rfl, .inl ⟨hj, hJ, rfl⟩⟩, rfl, h2, by rw [← hl]; exact hx, ?_, ?_⟩
      · simp only [measuresOf, hl]
      · unfold solve solveFor
        rw [if_pos hj, jacobiEnv_erase, hJ]
        rfl
  · rw [if_neg hj] at h1
    by_cases hm : O.optimizer ∈ ["nelder-mead", "powell", "bfgs", "l-bfgs-b", "cg", "slsqp"]
    · rw [if_pos hm] at h1
      obtain ⟨e0, g0, h1⟩ := bindOk h1
      obtain ⟨⟨x', k', nf⟩, g1, h1⟩ := bindOk h1
      obtain ⟨e', g2, h1⟩ := bindOk h1
      cases h1
      have hx := hS _ _ _ _ g1
      refine ⟨⟨c.base.alg, { c.base.alg with tamps := x' }, _, k', nf⟩, U, ⟨rfl, .inr ⟨hm, g1, g2⟩⟩, rfl, h2, by rw [← hl]; exact hx, rfl, ?_⟩
      unfold solve solveFor
      have hmin : (eraseC X S).minimize c.base.alg = .ok x' := by
        show (S c.base.alg).map Prod.fst = _
        rw [g1]; rfl
      rw [if_neg hj, if_pos hm, g0, except_ok_bind, hmin, except_ok_bind, g2]
      rfl
    · rw [if_neg hm] at h1; cases h1

/-- the row of iteration number `j` (from 0) of the table -/
def RowOf (o : DescSort) (so : SortOracle) (Nl : ℕ) (its : List Iter) (j : ℕ) (r : Row) : Prop :=
  ∃ it U, its[j]? = some it ∧ r.energy = it.energy ∧ r.params = it.final.tops.length ∧ it.final.buildUvqc o so none = .ok U ∧ r.cnots = Circuit.getNumCnots U ∧
    r.meas = ((its.take (j + 1)).map (measuresOf Nl)).sum

/-- the counters after the iterations `its` -/
structure Recorded (o : DescSort) (so : SortOracle) (par : Option Schedule) (X : Ext) (S : ScipyCount) (Nl : ℕ) (O : Opts) (c : Count) (its : List Iter) : Prop where
  solved : ∀ it ∈ its, Solved o so par X S O c.base.toPool it ∧ it.final.tamps.length = it.final.tops.length
  energies : c.base.energies = its.map Iter.energy
  params : c.base.nParams = its.map fun it => it.final.tops.length
  cnots : List.Forall₂ (fun it n => ∃ U, it.final.buildUvqc o so none = .ok U ∧ n = Circuit.getNumCnots U) its c.cnots
  meas : c.meas = its.map (measuresOf Nl)
  vecs : c.vecs = (its.map Iter.evals).sum
  elems : c.elems = (its.map fun it => it.evals * it.final.tops.length).sum
  sized : c.base.alg.tamps.length = c.base.alg.tops.length
  last : ∀ it, its.getLast? = some it → c.base.alg = it.final
  iter : c.base.iter = its.length + 1
  fileLen : c.file.length = its.length
  file : ∀ (j : ℕ) r, c.file[j]? = some r → r.k = j + 1 ∧ RowOf o so Nl its j r

theorem RowOf.append {o : DescSort} {so : SortOracle} {Nl : ℕ} {its : List Iter} {j : ℕ} {r : Row} (h : RowOf o so Nl its j r) (it : Iter) : RowOf o so Nl (its ++ [it]) j r := by
  obtain ⟨i, U, h1, h2, h3, h4, h5, h6⟩ := h
  have hj : j < its.length := by
    by_contra hj
    rw [List.getElem?_eq_none (by omega)] at h1; cases h1
  refine ⟨i, U, by rw [List.getElem?_append_left hj]; exact h1, h2, h3, h4, h5, ?_⟩
  rw [h6, List.take_append_of_le_length (by omega)]

theorem loopC_ok {o : DescSort} {so : SortOracle} {par : Option Schedule} {X : Ext} {S : ScipyCount} (hS : KeepsLength S) {Nl : ℕ} {O : Opts} {eiH : Circuit} (fuel : ℕ) {c c' : Count}
    {its : List Iter} (hr : Recorded o so par X S Nl O c its) (h : loopC o so par X S Nl O eiH fuel c = .ok c') :
    loop o so par (eraseC X S) O eiH fuel c.base = .ok c'.base ∧ ∃ more, Recorded o so par X S Nl O c' (its ++ more) := by
  induction fuel generalizing c its with
  | zero => cases h
  | succ fuel ih =>
    unfold loopC at h
    unfold loop
    cases hst : c.base.stop with
    | true =>
      rw [hst, if_pos rfl] at h
      cases h
      rw [if_pos rfl]
      exact ⟨rfl, [], by rw [List.append_nil]; exact hr⟩
    | false =>
      rw [hst, if_neg (by simp)] at h
      rw [if_neg (by simp)]
      obtain ⟨st, hu, h⟩ := bindOk h
      dsimp only at h
      have U := updated _ _ _ _ _ _ _ _ hu
      rw [hu, except_ok_bind]
      cases hc : st.converged with
      | true =>
        rw [hc, if_pos rfl] at h
        cases h
        rw [if_pos rfl]
        obtain ⟨y1, y2⟩ := U.yes hc
        refine ⟨rfl, [], ?_⟩
        rw [List.append_nil]
        exact ⟨fun it hi => by simp only [U.toPool]; exact hr.solved it hi, by simp only [U.energies]; exact hr.energies, by simp only [y1]; exact hr.params, hr.cnots, hr.meas, hr.vecs, hr.elems, U.sized hr.sized, fun it hi => by simp only [y2]; exact hr.last it hi, by simp only [U.iter]; exact hr.iter, hr.fileLen, hr.file⟩
      | false =>
        rw [hc, if_neg (by simp)] at h
        rw [if_neg (by simp)]
        obtain ⟨c1, h1, h⟩ := bindOk h
        obtain ⟨e, h2, h⟩ := bindOk h
        obtain ⟨n, h3, h⟩ := bindOk h
        obtain ⟨it, V, s1, s2, s3, s4, s5, s6⟩ := solveC_ok (c := { c with base := st, measK := 0 }) hS (U.sized hr.sized) h1
        dsimp only at s1 s2 s5 s6
        rw [s6, except_ok_bind]
        rw [U.toPool] at s1
        have hfin := s1.1
        have htops : it.final.tops = st.alg.tops := by rw [hfin, s2]
        have he : e = it.energy := by
          rw [s5] at h2
          simp only [pyLast, List.getLast?_append, List.getLast?_singleton, Option.some_or, Option.elim_some] at h2
          exact (Except.ok.inj h2).symm
        have hn : n = Circuit.getNumCnots V := by
          rw [s5] at h3
          simp only [pyLast, List.getLast?_append, List.getLast?_singleton, Option.some_or, Option.elim_some] at h3
          exact (Except.ok.inj h3).symm
        have hmeas : c1.meas = (its ++ [it]).map (measuresOf Nl) := by
          rw [s5]; simp [hr.meas]
        have hrec : Recorded o so par X S Nl O { c1 with file := c1.file ++ [{ k := c1.base.iter, energy := e, params := c1.base.alg.tamps.length, cnots := n, meas := c1.meas.sum }], base := { c1.base with iter := c1.base.iter + 1 } } (its ++ [it]) := by
          refine ⟨?_, ?_, ?_, ?_, hmeas, ?_, ?_, ?_, ?_, ?_, ?_, ?_⟩
          · intro i hi
            have hp : c1.base.toPool = c.base.toPool := by rw [s5]; exact U.toPool
            simp only [hp]
            rcases List.mem_append.1 hi with hi | hi
            · exact hr.solved i hi
            · obtain rfl := List.mem_singleton.1 hi
              exact ⟨s1, s4⟩
          · simp only [s5, U.energies, hr.energies, List.map_append, List.map_cons, List.map_nil]
          · simp only [s5, U.no hc, hr.params, List.map_append, List.map_cons, List.map_nil, htops]
          · simp only [s5]
            exact List.rel_append hr.cnots (.cons ⟨V, s3, rfl⟩ .nil)
          · simp only [s5, hr.vecs]; simp
          · simp only [s5, hr.elems]; simp
          · simp only [s5]; exact s4
          · intro i hi
            simp only [List.getLast?_append, List.getLast?_singleton, Option.some_or, Option.some.injEq] at hi
            subst hi
            simp only [s5]
          · simp only [s5, U.iter, hr.iter]; push_cast [List.length_append]; simp
          · simp only [s5]; simp [hr.fileLen]
          · intro j r hj
            simp only at hj
            have hf : c1.file = c.file := by rw [s5]
            rw [hf] at hj
            by_cases hlt : j < c.file.length
            · rw [List.getElem?_append_left hlt] at hj
              obtain ⟨a, b⟩ := hr.file j r hj
              exact ⟨a, b.append it⟩
            · rw [List.getElem?_append_right (by omega)] at hj
              have hj0 : j - c.file.length = 0 := by
                by_contra hne
                rw [List.getElem?_eq_none (by simp; omega)] at hj; cases hj
              rw [hj0] at hj
              have hje : j = its.length := by rw [← hr.fileLen]; omega
              simp only [List.getElem?_cons_zero, Option.some.injEq] at hj
              subst hj
              refine ⟨?_, it, V, ?_, he, ?_, s3, hn, ?_⟩
              · simp only [s5, U.iter, hr.iter, hje]
              · rw [hje, List.getElem?_append_right (le_refl _)]; simp
              · simp only [s5]; exact s4
              · simp only [hmeas, hje]
                rw [List.take_of_length_le (by simp)]
        obtain ⟨a, more, b⟩ := ih hrec h
        exact ⟨a, it :: more, by rw [List.append_cons]; exact b⟩

theorem mapM_get {α β : Type} {f : α → Except Exc β} {l : List α} {r : List β} (h : l.mapM f = .ok r) : List.Forall₂ (fun a b => f a = .ok b) l r := by
  induction l generalizing r with
  | nil => cases h; exact .nil
  | cons a l ih =>
    rw [List.mapM_cons] at h
    obtain ⟨b, h1, h⟩ := bindOk h
    obtain ⟨bs, h2, h⟩ := bindOk h
    cases h
    exact .cons h1 (ih h2)

theorem pyIndex_some {α : Type} {l : List α} {i : ℕ} {x : α} (h : pyIndex l i = .ok x) : l[i]? = some x := by
  unfold pyIndex at h
  cases hl : l[i]? with
  | none => rw [hl] at h; cases h
  | some y => rw [hl] at h; cases h; rfl

theorem mapM_total' {α β : Type} (f : α → Except Exc β) (l : List α) (h : ∀ a ∈ l, ∃ b, f a = .ok b) : ∃ r, l.mapM f = .ok r := by
  induction l with
  | nil => exact ⟨_, rfl⟩
  | cons a l ih =>
    obtain ⟨b, hb⟩ := h a (by simp)
    obtain ⟨r, hr⟩ := ih fun x hx => h x (by simp [hx])
    exact ⟨b :: r, by rw [List.mapM_cons, hb, except_ok_bind, hr, except_ok_bind]; rfl⟩

theorem table_ok {c : Count} {rows : List Row} (h : table c = .ok rows) : rows.length = c.base.energies.length ∧ ∀ (j : ℕ) r, rows[j]? = some r →
    r.k = j ∧ c.base.energies[j]? = some r.energy ∧ c.base.nParams[j]? = some r.params ∧ c.cnots[j]? = some r.cnots ∧ r.meas = (c.meas.take (j + 1)).sum := by
  unfold table at h
  have hl := mapM_length _ _ _ h
  refine ⟨by simpa using hl, fun j r hr => ?_⟩
  have hf := mapM_get h
  have hj : j < rows.length := (List.getElem?_eq_some_iff.1 hr).1
  have hj' : j < c.base.energies.zipIdx.length := by rw [← hl]; exact hj
  have := (List.forall₂_iff_get.1 hf).2 j hj' hj
  simp only [List.get_eq_getElem, List.getElem_zipIdx, Nat.zero_add] at this
  obtain ⟨n, h1, this⟩ := bindOk this
  obtain ⟨x, h2, this⟩ := bindOk this
  have hr' : rows[j] = r := by
    rw [List.getElem?_eq_getElem hj] at hr; exact Option.some.inj hr
  rw [← hr', ← Except.ok.inj this]
  have hje : j < c.base.energies.length := by simpa using hj'
  exact ⟨rfl, List.getElem?_eq_getElem hje, pyIndex_some h1, pyIndex_some h2, rfl⟩

/-- C113: the resource counts of an `SPQE` run that returns.  There is a nonempty list of macro-iterations, each made by the solver from the ansatz selected; the table and the summary file
have one line for each of them, with its energy, its number of operators, the number of CNOTs of its whole circuit and the measurements of all iterations so far, and differ only in
the number of the line (the table starts at 0, the file at 1).  The summary gives the number of amplitudes and CNOTs of the final ansatz, all measurements, all residual vectors
and their elements.  The counters do not change the run. -/
theorem C113_run (o : DescSort) (so : SortOracle) (par : Option Schedule) (X : Ext) (S : ScipyCount) (hS : KeepsLength S) (Nl : ℕ) (O : Opts) (irr : List ℕ) (irrep : ℕ) (A : PqeAlg)
    (fuel : ℕ) (R : Report) (h : runC o so par X S Nl O irr irrep A fuel = .ok R) :
    run o so par (eraseC X S) O true irr irrep A fuel = .ok (R.obj.base, R.egs) ∧
    ∃ its, its ≠ [] ∧ (∀ it ∈ its, Solved o so par X S O R.obj.base.toPool it ∧ it.final.tamps.length = it.final.tops.length) ∧
      its.getLast?.map Iter.final = some R.obj.base.alg ∧ its.getLast?.map Iter.energy = some R.egs ∧
      R.rows.length = its.length ∧ (∀ (j : ℕ) r, R.rows[j]? = some r → r.k = j ∧ RowOf o so Nl its j r) ∧
      R.obj.file.length = its.length ∧ (∀ (j : ℕ) r, R.obj.file[j]? = some r → r.k = j + 1 ∧ RowOf o so Nl its j r) ∧
      R.nParams = R.obj.base.alg.tops.length ∧ (∃ U, R.obj.base.alg.buildUvqc o so none = .ok U ∧ R.nCnot = Circuit.getNumCnots U) ∧
      R.nMeas = (its.map (measuresOf Nl)).sum ∧ R.obj.vecs = (its.map Iter.evals).sum ∧ R.obj.elems = (its.map fun it => it.evals * it.final.tops.length).sum := by
  unfold runC at h
  unfold run
  obtain ⟨⟨eiH, ph⟩, h1, h⟩ := bindOk h
  dsimp only at h
  obtain ⟨P, h2, h⟩ := bindOk h
  obtain ⟨c, h3, h⟩ := bindOk h
  obtain ⟨e, h4, h⟩ := bindOk h
  obtain ⟨rows, h5, h⟩ := bindOk h
  obtain ⟨n, h6, h⟩ := bindOk h
  cases h
  dsimp only
  obtain ⟨l1, its, l2⟩ := loopC_ok (its := []) hS fuel ⟨fun it hi => absurd hi (by simp), rfl, rfl, .nil, rfl, rfl, rfl, rfl, fun it hi => by simp at hi, rfl, rfl, fun j r hj => by simp at hj⟩ h3
  rw [List.nil_append] at l2
  have hlast : ∃ it, its.getLast? = some it ∧ e = it.energy := by
    unfold pyLast at h4
    rw [l2.energies, List.getLast?_map] at h4
    cases hi : its.getLast? with
    | none => rw [hi] at h4; cases h4
    | some it => rw [hi] at h4; exact ⟨it, rfl, (Except.ok.inj h4).symm⟩
  obtain ⟨it, hit, he⟩ := hlast
  have hne : its ≠ [] := by rintro rfl; cases hit
  have halg := l2.last it hit
  refine ⟨?_, its, hne, l2.solved, by rw [hit, halg]; rfl, by rw [hit, he]; rfl, ?_, ?_, l2.fileLen, l2.file, l2.sized, ?_, by rw [l2.meas], l2.vecs, l2.elems⟩
  · rw [if_neg (by simp), h1, except_ok_bind]
    dsimp only
    rw [h2, except_ok_bind, l1, except_ok_bind]
    have : (c.base.energies.getLast?).elim (.error .indexError) pure = (.ok e : Except Exc ℝ) := h4
    rw [this]; rfl
  · rw [(table_ok h5).1, l2.energies, List.length_map]
  · intro j r hj
    obtain ⟨t1, t2, t3, t4, t5⟩ := (table_ok h5).2 j r hj
    refine ⟨t1, ?_⟩
    rw [l2.energies, List.getElem?_map] at t2
    rw [l2.params, List.getElem?_map] at t3
    cases hi : its[j]? with
    | none => rw [hi] at t2; cases t2
    | some i =>
      rw [hi] at t2 t3
      have hjl : j < its.length := (List.getElem?_eq_some_iff.1 hi).1
      have hjc : j < c.cnots.length := (List.getElem?_eq_some_iff.1 t4).1
      obtain ⟨U, u1, u2⟩ := (List.forall₂_iff_get.1 l2.cnots).2 j hjl hjc
      simp only [List.get_eq_getElem] at u1 u2
      have hie : its[j] = i := by rw [List.getElem?_eq_getElem hjl] at hi; exact Option.some.inj hi
      rw [List.getElem?_eq_getElem hjc] at t4
      refine ⟨i, U, hi, (Option.some.inj t2).symm, (Option.some.inj t3).symm, by rw [← hie]; exact u1, by rw [← Option.some.inj t4]; exact u2, ?_⟩
      rw [t5, l2.meas, List.map_take]
  · have hl := l2.cnots.length_eq
    unfold pyLast at h6
    rw [List.getLast?_eq_getElem?] at h6 hit
    rw [← hl] at h6
    have hjl : its.length - 1 < its.length := by have := List.length_pos_of_ne_nil hne; omega
    have hjc : its.length - 1 < c.cnots.length := by omega
    rw [List.getElem?_eq_getElem hjc] at h6
    obtain ⟨U, u1, u2⟩ := (List.forall₂_iff_get.1 l2.cnots).2 _ hjl hjc
    simp only [List.get_eq_getElem] at u1 u2
    rw [List.getElem?_eq_getElem hjl] at hit
    rw [Option.some.inj hit] at u1
    exact ⟨U, by rw [halg]; exact u1, by rw [← Except.ok.inj h6]; exact u2⟩

/-- C113: with the Jacobi solver the measurements are `Nl` for every residual vector and twice `Nl` for every element of it. -/
theorem C113_jacobi (o : DescSort) (so : SortOracle) (par : Option Schedule) (X : Ext) (S : ScipyCount) (hS : KeepsLength S) (Nl : ℕ) (O : Opts) (hj : O.optimizer = "jacobi")
    (irr : List ℕ) (irrep : ℕ) (A : PqeAlg) (fuel : ℕ) (R : Report) (h : runC o so par X S Nl O irr irrep A fuel = .ok R) :
    R.nMeas = Nl * R.obj.vecs + 2 * Nl * R.obj.elems := by
  obtain ⟨-, its, -, h1, -, -, -, -, -, -, -, -, h2, h3, h4⟩ := C113_run o so par X S hS Nl O irr irrep A fuel R h
  rw [h2, h3, h4]
  clear h2 h3 h4
  induction its with
  | nil => simp
  | cons it its ih =>
    obtain ⟨⟨-, g⟩, hl⟩ := h1 it (by simp)
    have hk : it.evals = it.k := by
      rcases g with ⟨-, -, e⟩ | ⟨hm, -, -⟩
      · exact e
      · rw [hj] at hm; exact absurd hm (by decide)
    simp only [List.map_cons, List.sum_cons]
    rw [ih fun i hi => h1 i (by simp [hi])]
    unfold measuresOf
    rw [hk, hl]
    ring

/-- C113: with an optimizer of scipy the measurements are counted from the calls of the callback, not from the residual vectors evaluated: as long as each iteration of the optimizer
evaluates the objective at least once they are at most what the Jacobi solver reports for the same evaluations, and the same only if it does so exactly once. -/
theorem C113_scipy (o : DescSort) (so : SortOracle) (par : Option Schedule) (X : Ext) (S : ScipyCount) (hS : KeepsLength S) (Nl : ℕ) (O : Opts) (hj : O.optimizer ≠ "jacobi")
    (hk : ∀ A x k n, S A = .ok (x, k, n) → k ≤ n) (irr : List ℕ) (irrep : ℕ) (A : PqeAlg) (fuel : ℕ) (R : Report) (h : runC o so par X S Nl O irr irrep A fuel = .ok R) :
    R.nMeas ≤ Nl * R.obj.vecs + 2 * Nl * R.obj.elems ∧
    ((∃ A x k n, S A = .ok (x, k, n) ∧ k < n) ∨ R.nMeas = Nl * R.obj.vecs + 2 * Nl * R.obj.elems) := by
  obtain ⟨-, its, -, h1, -, -, -, -, -, -, -, -, h2, h3, h4⟩ := C113_run o so par X S hS Nl O irr irrep A fuel R h
  rw [h2, h3, h4]
  have hle : ∀ it ∈ its, it.k ≤ it.evals ∧ S it.start = .ok (it.final.tamps, it.k, it.evals) ∧ it.final.tamps.length = it.final.tops.length := by
    intro it hi
    obtain ⟨⟨-, g⟩, hl⟩ := h1 it hi
    rcases g with ⟨e, -, -⟩ | ⟨-, e, -⟩
    · exact absurd e hj
    · exact ⟨hk _ _ _ _ e, e, hl⟩
  clear h1 h2 h3 h4
  induction its with
  | nil => simp
  | cons it its ih =>
    obtain ⟨a, b, c⟩ := hle it (by simp)
    obtain ⟨i1, i2⟩ := ih fun i hi => hle i (by simp [hi])
    simp only [List.map_cons, List.sum_cons]
    have hm : measuresOf Nl it = Nl * it.k + 2 * Nl * (it.k * it.final.tops.length) := by unfold measuresOf; rw [c]; ring
    have h5 : Nl * it.k ≤ Nl * it.evals := Nat.mul_le_mul_left _ a
    have h6 : 2 * Nl * (it.k * it.final.tops.length) ≤ 2 * Nl * (it.evals * it.final.tops.length) := Nat.mul_le_mul_left _ (Nat.mul_le_mul_right _ a)
    constructor
    · rw [hm]; nlinarith
    · rcases i2 with i2 | i2
      · exact .inl i2
      · rcases Nat.lt_or_ge it.k it.evals with hlt | hge
        · exact .inl ⟨_, _, _, _, b, hlt⟩
        · right
          have : it.k = it.evals := le_antisymm a hge
          rw [hm, i2, this]; ring

theorem energy_build {o : DescSort} {so : SortOracle} {par : Option Schedule} {B : UccAlg} {x : List ℝ} {e : ℝ} (h : B.energyFeval o so par x = .ok e) :
    ∃ U, ({ B with tamps := x } : UccAlg).buildUvqc o so none = .ok U := by
  unfold UccAlg.energyFeval at h
  obtain ⟨U, h1, -⟩ := bindOk h
  exact ⟨U, h1⟩

theorem solveC_total {o : DescSort} {so : SortOracle} {par : Option Schedule} {X : Ext} {S : ScipyCount} {Nl : ℕ} {O : Opts} {c : Count} {st : State}
    (h : solve o so par (eraseC X S) O c.base = .ok st) : ∃ c', solveC o so par X S Nl O c = .ok c' := by
  unfold solve solveFor at h
  obtain ⟨⟨x, e⟩, h1, -⟩ := bindOk h
  unfold solveC
  by_cases hj : O.optimizer = "jacobi"
  · rw [if_pos hj, jacobiEnv_erase] at h1
    obtain ⟨⟨x', e', k⟩, h2, h1⟩ := bindOk h1
    cases h1
    obtain ⟨U, hU⟩ := energy_build (C75_run _ _ _ _ _ h2).2.2.1
    simp only [if_pos hj, C111_jacobi, h2, Except.map, except_ok_bind, pure, Except.pure]
    have hU' : ({ c.base.alg with tamps := x } : PqeAlg).buildUvqc o so none = .ok U := hU
    simp only [hU', except_ok_bind]
    exact ⟨_, rfl⟩
  · rw [if_neg hj] at h1
    by_cases hm : O.optimizer ∈ ["nelder-mead", "powell", "bfgs", "l-bfgs-b", "cg", "slsqp"]
    · rw [if_pos hm] at h1
      obtain ⟨e0, g0, h1⟩ := bindOk h1
      obtain ⟨x', g1, h1⟩ := bindOk h1
      obtain ⟨e', g2, h1⟩ := bindOk h1
      cases h1
      have g1' : (S c.base.alg).map Prod.fst = .ok x := g1
      cases hs : S c.base.alg with
      | error e => rw [hs] at g1'; cases g1'
      | ok r =>
        rw [hs] at g1'
        have hx : r.1 = x := Except.ok.inj g1'
        obtain ⟨U, hU⟩ := energy_build g2
        have hU' : ({ c.base.alg with tamps := x } : PqeAlg).buildUvqc o so none = .ok U := hU
        simp only [if_neg hj, if_pos hm, g0, except_ok_bind, hs, hx, g2, pure, Except.pure, hU']
        exact ⟨_, rfl⟩
    · rw [if_neg hm] at h1; cases h1

theorem loopC_total {o : DescSort} {so : SortOracle} {par : Option Schedule} {X : Ext} {S : ScipyCount} (hS : KeepsLength S) {Nl : ℕ} {O : Opts} {eiH : Circuit} (fuel : ℕ) {c : Count}
    {st : State} (hl : c.base.alg.tamps.length = c.base.alg.tops.length) (h : loop o so par (eraseC X S) O eiH fuel c.base = .ok st) :
    ∃ c', loopC o so par X S Nl O eiH fuel c = .ok c' := by
  induction fuel generalizing c with
  | zero => cases h
  | succ fuel ih =>
    unfold loop at h
    unfold loopC
    cases hst : c.base.stop with
    | true => rw [if_pos rfl]; exact ⟨_, rfl⟩
    | false =>
      rw [hst, if_neg (by simp)] at h
      rw [if_neg (by simp)]
      obtain ⟨s1, hu, h⟩ := bindOk h
      have U := updated _ _ _ _ _ _ _ _ hu
      rw [hu, except_ok_bind]
      dsimp only
      cases hc : s1.converged with
      | true => rw [if_pos rfl]; exact ⟨_, rfl⟩
      | false =>
        rw [hc, if_neg (by simp)] at h
        rw [if_neg (by simp)]
        obtain ⟨s2, h2, h⟩ := bindOk h
        obtain ⟨c1, h1⟩ := solveC_total (Nl := Nl) (c := { c with base := s1, measK := 0 }) h2
        obtain ⟨it, V, -, -, -, s4, s5, s6⟩ := solveC_ok (c := { c with base := s1, measK := 0 }) hS (U.sized hl) h1
        have hb : s2 = c1.base := Except.ok.inj (h2.symm.trans s6)
        rw [h1, except_ok_bind]
        have p1 : pyLast c1.base.energies = .ok it.energy := by rw [s5]; simp [pyLast, pure, Except.pure]
        have p2 : pyLast c1.cnots = .ok (Circuit.getNumCnots V) := by rw [s5]; simp [pyLast, pure, Except.pure]
        rw [p1, except_ok_bind, p2, except_ok_bind]
        rw [hb] at h
        refine ih ?_ h
        show c1.base.alg.tamps.length = c1.base.alg.tops.length
        rw [s5]; exact s4

/-- C113: whenever the run returns, so does the run with the counters: no line of the table is missing. -/
theorem C113_returns (o : DescSort) (so : SortOracle) (par : Option Schedule) (X : Ext) (S : ScipyCount) (hS : KeepsLength S) (Nl : ℕ) (O : Opts) (irr : List ℕ) (irrep : ℕ) (A : PqeAlg)
    (fuel : ℕ) (r : State × ℝ) (h : run o so par (eraseC X S) O true irr irrep A fuel = .ok r) : ∃ R, runC o so par X S Nl O irr irrep A fuel = .ok R := by
  unfold run at h
  unfold runC
  rw [if_neg (by simp)] at h
  obtain ⟨⟨eiH, ph⟩, h1, h⟩ := bindOk h
  dsimp only at h
  obtain ⟨P, h2, h⟩ := bindOk h
  obtain ⟨st, h3, h⟩ := bindOk h
  obtain ⟨e, h4, h⟩ := bindOk h
  rw [h1, except_ok_bind]
  dsimp only
  rw [h2, except_ok_bind]
  obtain ⟨c, hc⟩ := loopC_total (Nl := Nl) (c := { base := { alg := { A with pool := P.elems, saSD := false, tops := [], tamps := [] }, toPool := P.toPool, nbody := (A.ref.filter (· ≠ 0)).map fun _ => 0 } }) hS fuel rfl h3
  obtain ⟨l1, its, l2⟩ := loopC_ok (its := []) hS fuel ⟨fun it hi => absurd hi (by simp), rfl, rfl, .nil, rfl, rfl, rfl, rfl, fun it hi => by simp at hi, rfl, rfl, fun j r hj => by simp at hj⟩ hc
  rw [List.nil_append] at l2
  have hb : c.base = st := Except.ok.inj (l1.symm.trans h3)
  have p1 : pyLast c.base.energies = .ok e := by rw [hb]; exact h4
  have hlen : c.cnots.length = c.base.energies.length := by rw [l2.energies, List.length_map]; exact l2.cnots.length_eq.symm
  have hnp : c.base.nParams.length = c.base.energies.length := by rw [l2.energies, l2.params]; simp
  obtain ⟨rows, hrows⟩ : ∃ rows, table c = .ok rows := by
    unfold table
    refine mapM_total' _ _ fun p hp => ?_
    have hp2 : p.2 < c.base.energies.length := by
      have := List.snd_lt_of_mem_zipIdx hp; omega
    have i1 : pyIndex c.base.nParams p.2 = .ok _ := pyIndex_ok (List.getElem?_eq_getElem (by omega))
    have i2 : pyIndex c.cnots p.2 = .ok _ := pyIndex_ok (List.getElem?_eq_getElem (by omega))
    rw [i1, except_ok_bind, i2, except_ok_bind]
    exact ⟨_, rfl⟩
  obtain ⟨n, p2⟩ : ∃ n, pyLast c.cnots = .ok n := by
    unfold pyLast at p1 ⊢
    cases hl : c.cnots.getLast? with
    | some n => exact ⟨n, rfl⟩
    | none =>
      rw [List.getLast?_eq_none_iff] at hl
      rw [hl] at hlen
      have : c.base.energies = [] := List.length_eq_zero_iff.1 hlen.symm
      rw [this] at p1; cases p1
  rw [hc, except_ok_bind, p1, except_ok_bind, hrows, except_ok_bind, p2, except_ok_bind]
  exact ⟨_, rfl⟩

/-- the optimizer that returns its starting point after one evaluation, without calling the callback -/
def stayCount : ScipyCount := fun A => .ok (A.tamps, 0, 1)

/-- C113: the hypotheses are met: for the four-qubit hopping Hamiltonian, whose pool is not empty, the run with counters returns. -/
theorem C113_example (o : DescSort) (so : SortOracle) : KeepsLength stayCount ∧ (∀ A x k n, stayCount A = .ok (x, k, n) → k ≤ n) ∧
    ∃ dt : ℝ, dt ≠ 0 ∧ ∃ R, runC o so none stayExt stayCount 2 { dt := dt, optimizer := "bfgs" } [0, 0] 0 hopSpqe 22 = .ok R := by
  have hS : KeepsLength stayCount := by intro A x k n h; cases h; rfl
  refine ⟨hS, by intro A x k n h; cases h; omega, ?_⟩
  obtain ⟨-, ⟨dt, hd, -, r, hr⟩, -⟩ := C88_example o so
  exact ⟨dt, hd, C113_returns o so none stayExt stayCount hS 2 _ _ _ _ _ r hr⟩

end Spqe
end QF
