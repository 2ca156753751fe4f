import Verif.Props.AdaptCount
import Verif.Props.SpqeCount

/-!
C114: an algorithm object may be run again.  What a run returns, its counters and tables included, does not depend on what was run with the object before, with which
arguments, nor on whether those runs were interrupted by an exception.
-/
namespace QF

open SQOperator (DescSort)
open QubitOperator (SortOracle)

/-- specification: what runs of `ADAPTVQE` and `SPQE` can leave changed in the object: the pool, the chosen operators and their amplitudes -/
def SameSetup (A B : UccAlg) : Prop :=
  B.nqb = A.nqb ∧ B.computer = A.computer ∧ B.uprep = A.uprep ∧ B.ham = A.ham ∧ B.compact = A.compact ∧ B.qubitExc = A.qubitExc ∧ B.trotterNumber = A.trotterNumber

theorem SameSetup.rfl' (A : UccAlg) : SameSetup A A := ⟨rfl, rfl, rfl, rfl, rfl, rfl, rfl⟩

theorem SameSetup.eq {A B : UccAlg} (h : SameSetup A B) : B = { A with pool := B.pool, saSD := B.saSD, tops := B.tops, tamps := B.tamps } := by
  obtain ⟨h1, h2, h3, h4, h5, h6, h7⟩ := h
  cases A; cases B
  simp only at h1 h2 h3 h4 h5 h6 h7
  subst h1 h2 h3 h4 h5 h6 h7
  rfl

theorem SameSetup.of {A B : UccAlg} (h : B = { A with pool := B.pool, saSD := B.saSD, tops := B.tops, tamps := B.tamps }) : SameSetup A B := by
  rw [h]; exact ⟨rfl, rfl, rfl, rfl, rfl, rfl, rfl⟩

namespace Adapt

theorem Iters.ansatz {S : CountSolver} {B : UccAlg} {its : List Iter} (h : Iters S B its) : ∀ it ∈ its, it.ansatz = { B with tops := it.ansatz.tops, tamps := it.ansatz.tamps } := by
  induction h with
  | nil B => intro it hi; simp at hi
  | cons hm hS ht ih =>
    intro it hi
    rcases List.mem_cons.1 hi with rfl | hi
    · rfl
    · exact ih it hi

/-- one more use of the object: the pool is filled again, and `run` is called with any arguments and optimizer; it returns, or an exception leaves any operators and
amplitudes -/
inductive Use (o : DescSort) (so : SortOracle) (par : Option Schedule) : UccAlg → UccAlg → Prop
  | fill (A : UccAlg) (P : List (ℂ × SQOperator)) (sa : Bool) : Use o so par A { A with pool := P, saSD := sa }
  | run (A : UccAlg) (S : CountSolver) (E : CountEnv) (O : AdaptOpts) (hE : E.Nm.length = A.pool.length) (R : AdaptReport) (h : runC o so par S E O A = .ok R) :
      Use o so par A R.obj.base.ucc
  | fails (A : UccAlg) (ts : List ℕ) (xs : List ℝ) : Use o so par A { A with tops := ts, tamps := xs }

theorem use_setup {o : DescSort} {so : SortOracle} {par : Option Schedule} {A B : UccAlg} (h : Use o so par A B) : SameSetup A B := by
  cases h with
  | fill P sa => exact ⟨rfl, rfl, rfl, rfl, rfl, rfl, rfl⟩
  | fails ts xs => exact ⟨rfl, rfl, rfl, rfl, rfl, rfl, rfl⟩
  | run S E O hE R h =>
    obtain ⟨its, h1, h2, -, -, h3, -⟩ := C110_run o so par S E O A hE R h
    obtain ⟨it, hit⟩ : ∃ it, its.getLast? = some it := by
      cases hl : its.getLast? with
      | none => rw [List.getLast?_eq_none_iff] at hl; exact absurd hl h2
      | some it => exact ⟨it, rfl⟩
    rw [hit] at h3
    have h4 := Iters.ansatz h1 it (List.mem_of_getLast? hit)
    have h5 : it.ansatz = R.obj.base.ucc := by simpa using h3
    rw [← h5, h4]
    exact ⟨rfl, rfl, rfl, rfl, rfl, rfl, rfl⟩

theorem uses_setup {o : DescSort} {so : SortOracle} {par : Option Schedule} {A B : UccAlg} (h : Relation.ReflTransGen (Use o so par) A B) : SameSetup A B := by
  induction h with
  | refl => exact SameSetup.rfl' A
  | tail _ h ih =>
    obtain ⟨a1, a2, a3, a4, a5, a6, a7⟩ := use_setup h
    obtain ⟨b1, b2, b3, b4, b5, b6, b7⟩ := ih
    exact ⟨a1.trans b1, a2.trans b2, a3.trans b3, a4.trans b4, a5.trans b5, a6.trans b6, a7.trans b7⟩

/-- C114: `ADAPTVQE`: after any history of runs, completed or not, filling the pool and running gives exactly what it gives with a fresh object. -/
theorem C114_adapt (o : DescSort) (so : SortOracle) (par : Option Schedule) (A B : UccAlg) (h : Relation.ReflTransGen (Use o so par) A B) (P : List (ℂ × SQOperator)) (sa : Bool)
    (S : CountSolver) (E : CountEnv) (O : AdaptOpts) :
    runC o so par S E O { B with pool := P, saSD := sa } = runC o so par S E O { A with pool := P, saSD := sa } := by
  rw [(uses_setup h).eq]
  rfl

/-- C114: running a second time with the same arguments gives the same again. -/
theorem C114_adapt_twice (o : DescSort) (so : SortOracle) (par : Option Schedule) (A : UccAlg) (S : CountSolver) (E : CountEnv) (O : AdaptOpts) (hE : E.Nm.length = A.pool.length)
    (R : AdaptReport) (h : runC o so par S E O A = .ok R) : runC o so par S E O R.obj.base.ucc = .ok R := by
  obtain ⟨its, h1, h2, -, -, h3, -⟩ := C110_run o so par S E O A hE R h
  obtain ⟨it, hit⟩ : ∃ it, its.getLast? = some it := by
    cases hl : its.getLast? with
    | none => rw [List.getLast?_eq_none_iff] at hl; exact absurd hl h2
    | some it => exact ⟨it, rfl⟩
  rw [hit] at h3
  have h4 := Iters.ansatz h1 it (List.mem_of_getLast? hit)
  have h5 : it.ansatz = R.obj.base.ucc := by simpa using h3
  rw [← h5, h4, ← h]
  rfl

/-- C114: a run that changes the object and can be repeated: `hopAlg`. -/
theorem C114_adapt_example (o : DescSort) (so : SortOracle) : ∃ (S : CountSolver) (E : CountEnv) (R : AdaptReport), runC o so none S E {} hopAlg = .ok R ∧
    runC o so none S E {} R.obj.base.ucc = .ok R ∧ Relation.ReflTransGen (Use o so none) hopAlg R.obj.base.ucc := by
  obtain ⟨S, E, R, h1, -, -, -, h2, -⟩ := C110_example o so
  exact ⟨S, E, R, h2, C114_adapt_twice o so none _ S E _ h1 R h2, .single (.run _ S E _ h1 R h2)⟩

end Adapt

namespace Spqe

/-- the same for `SPQE` -/
def SameSetup (A B : PqeAlg) : Prop := QF.SameSetup A.toUccAlg B.toUccAlg ∧ B.ref = A.ref ∧ B.refprep = A.refprep

theorem SameSetup.eq {A B : PqeAlg} (h : SameSetup A B) : B = { A with pool := B.pool, saSD := B.saSD, tops := B.tops, tamps := B.tamps } := by
  obtain ⟨h1, h2, h3⟩ := h
  obtain ⟨a, a2, a3⟩ := A
  obtain ⟨b, b2, b3⟩ := B
  simp only at h1 h2 h3
  subst h2 h3
  have h4 := h1.eq
  simp only
  rw [PqeAlg.mk.injEq]
  exact ⟨h4, rfl, rfl⟩

theorem SameSetup.refl (A : PqeAlg) : SameSetup A A := ⟨QF.SameSetup.rfl' _, rfl, rfl⟩

theorem SameSetup.trans {A B C : PqeAlg} (h : SameSetup A B) (g : SameSetup B C) : SameSetup A C := by
  obtain ⟨⟨a1, a2, a3, a4, a5, a6, a7⟩, a8, a9⟩ := g
  obtain ⟨⟨b1, b2, b3, b4, b5, b6, b7⟩, b8, b9⟩ := h
  exact ⟨⟨a1.trans b1, a2.trans b2, a3.trans b3, a4.trans b4, a5.trans b5, a6.trans b6, a7.trans b7⟩, a8.trans b8, a9.trans b9⟩

theorem insert_setup (A : PqeAlg) (m : ℕ) : SameSetup A (insertOp A m) := ⟨⟨rfl, rfl, rfl, rfl, rfl, rfl, rfl⟩, rfl, rfl⟩

theorem inserts_setup (l : List ℕ) (A : PqeAlg) : SameSetup A (l.foldl insertOp A) := by
  induction l generalizing A with
  | nil => exact SameSetup.refl A
  | cons m l ih => exact (insert_setup A m).trans (ih _)

theorem selSingle_setup (d : List (ℕ × ℕ)) (l : List (ℝ × ℕ)) (st st' : State) (h : selSingle d st l = .ok st') : SameSetup st.alg st'.alg := by
  induction l with
  | nil => cases h; exact SameSetup.refl _
  | cons p l ih =>
    unfold selSingle at h
    obtain ⟨m, -, h⟩ := bindOk h
    by_cases hm : m ∉ st.alg.tops
    · rw [if_pos hm] at h
      obtain ⟨nb, -, h⟩ := bindOk h
      cases h
      exact insert_setup _ _
    · rw [if_neg hm] at h; exact ih h

theorem sample_setup (l : List ℕ) (st st' : State) (h : l.foldlM sampleStep st = .ok st') : SameSetup st.alg st'.alg := by
  induction l generalizing st with
  | nil => cases h; exact SameSetup.refl _
  | cons m l ih =>
    rw [List.foldlM_cons] at h
    obtain ⟨s1, h1, h⟩ := bindOk h
    refine SameSetup.trans ?_ (ih s1 h)
    unfold sampleStep at h1
    by_cases hm : m ∉ st.alg.tops
    · rw [if_pos hm] at h1
      obtain ⟨i, -, h1⟩ := bindOk h1
      obtain ⟨nb, -, h1⟩ := bindOk h1
      cases h1
      exact insert_setup _ _
    · rw [if_neg hm] at h1; cases h1; exact SameSetup.refl _

theorem update_setup (o : DescSort) (so : SortOracle) (par : Option Schedule) (X : Ext) (O : Opts) (eiH : Circuit) (st st' : State)
    (h : updateAnsatz o so par X O eiH st = .ok st') : SameSetup st.alg st'.alg := by
  unfold updateAnsatz at h
  cases hO : O.omega with
  | none =>
    rw [hO] at h
    dsimp only at h
    unfold updateInf at h
    obtain ⟨_, -, h⟩ := bindOk h
    obtain ⟨coeffs, -, h⟩ := bindOk h
    obtain ⟨rs, -, h⟩ := bindOk h
    dsimp only at h
    have hk : (convStatus O { st with resNorm := (rs.map Prod.fst).sum / (O.dt * O.dt) }).alg = st.alg := by rw [conv_keeps]
    generalize convStatus O { st with resNorm := (rs.map Prod.fst).sum / (O.dt * O.dt) } = s1 at h hk
    rw [← hk]
    cases hc : s1.converged with
    | true =>
      rw [if_pos hc] at h
      cases h
      exact SameSetup.refl _
    | false =>
      rw [if_neg (by simp [hc])] at h
      obtain ⟨s2, h2, h⟩ := bindOk h
      cases h
      cases hcu : O.cumulative with
      | true =>
        rw [hcu, if_pos rfl] at h2
        obtain ⟨s, -, h2⟩ := bindOk h2
        cases h2
        exact inserts_setup _ _
      | false =>
        rw [hcu, if_neg (by simp)] at h2
        have e := selSingle_setup _ _ _ _ h2
        exact e
  | some M =>
    rw [hO] at h
    dsimp only at h
    unfold updateSampled at h
    obtain ⟨_, -, h⟩ := bindOk h
    obtain ⟨coeffs, -, h⟩ := bindOk h
    obtain ⟨dets, -, h⟩ := bindOk h
    by_cases hM : M = 0
    · rw [if_pos hM] at h; cases h
    rw [if_neg hM] at h
    dsimp only at h
    split at h
    · obtain ⟨_, -, h⟩ := bindOk h
      obtain ⟨_, -, h⟩ := bindOk h
      cases h
      exact SameSetup.refl _
    · obtain ⟨s2, h2, h⟩ := bindOk h
      cases h
      have e := sample_setup _ _ _ h2
      exact e

theorem loop_setup (o : DescSort) (so : SortOracle) (par : Option Schedule) (X : Ext) (O : Opts) (eiH : Circuit) (fuel : ℕ) (st st' : State)
    (h : loop o so par X O eiH fuel st = .ok st') : SameSetup st.alg st'.alg := by
  induction fuel generalizing st with
  | zero => cases h
  | succ fuel ih =>
    unfold loop at h
    by_cases hs : st.stop = true
    · rw [if_pos hs] at h; cases h; exact SameSetup.refl _
    rw [if_neg hs] at h
    obtain ⟨s1, h1, h⟩ := bindOk h
    have e1 := update_setup o so par X O eiH st s1 h1
    by_cases hc : s1.converged = true
    · rw [if_pos hc] at h; cases h; exact e1
    rw [if_neg hc] at h
    obtain ⟨s2, h2, h⟩ := bindOk h
    unfold solve at h2
    obtain ⟨⟨x, e⟩, -, h2⟩ := bindOk h2
    cases h2
    have e2 := ih _ h
    have e3 : SameSetup s1.alg { s1.alg with tamps := x } := ⟨⟨rfl, rfl, rfl, rfl, rfl, rfl, rfl⟩, rfl, rfl⟩
    exact e1.trans (e3.trans e2)

/-- one more use of the object: `run` is called with any arguments; it returns, or an exception leaves any pool, operators and amplitudes -/
inductive Use (o : DescSort) (so : SortOracle) (par : Option Schedule) : PqeAlg → PqeAlg → Prop
  | run (A : PqeAlg) (X : Ext) (S : ScipyCount) (hS : KeepsLength S) (Nl : ℕ) (O : Opts) (irr : List ℕ) (irrep fuel : ℕ) (R : Report)
      (h : runC o so par X S Nl O irr irrep A fuel = .ok R) : Use o so par A R.obj.base.alg
  | fails (A : PqeAlg) (P : List (ℂ × SQOperator)) (sa : Bool) (ts : List ℕ) (xs : List ℝ) : Use o so par A { A with pool := P, saSD := sa, tops := ts, tamps := xs }

theorem use_setup {o : DescSort} {so : SortOracle} {par : Option Schedule} {A B : PqeAlg} (h : Use o so par A B) : SameSetup A B := by
  cases h with
  | fails P sa ts xs => exact ⟨⟨rfl, rfl, rfl, rfl, rfl, rfl, rfl⟩, rfl, rfl⟩
  | run X S hS Nl O irr irrep fuel R h =>
    obtain ⟨h1, -⟩ := C113_run o so par X S hS Nl O irr irrep A fuel R h
    unfold run at h1
    rw [if_neg (by simp)] at h1
    obtain ⟨⟨eiH, ph⟩, -, h1⟩ := bindOk h1
    dsimp only at h1
    obtain ⟨P, -, h1⟩ := bindOk h1
    obtain ⟨st, h3, h1⟩ := bindOk h1
    obtain ⟨e, -, h1⟩ := bindOk h1
    have hb : st = R.obj.base := by cases h1; rfl
    rw [← hb]
    exact SameSetup.trans ⟨⟨rfl, rfl, rfl, rfl, rfl, rfl, rfl⟩, rfl, rfl⟩ (loop_setup _ _ _ _ _ _ _ _ _ h3)

theorem uses_setup {o : DescSort} {so : SortOracle} {par : Option Schedule} {A B : PqeAlg} (h : Relation.ReflTransGen (Use o so par) A B) : SameSetup A B := by
  induction h with
  | refl => exact SameSetup.refl A
  | tail _ h ih => exact ih.trans (use_setup h)

/-- C114: `SPQE`: after any history of runs, completed or not, a run gives exactly what it gives with a fresh object. -/
theorem C114_spqe (o : DescSort) (so : SortOracle) (par : Option Schedule) (A B : PqeAlg) (h : Relation.ReflTransGen (Use o so par) A B) (X : Ext) (S : ScipyCount) (Nl : ℕ)
    (O : Opts) (irr : List ℕ) (irrep fuel : ℕ) : runC o so par X S Nl O irr irrep B fuel = runC o so par X S Nl O irr irrep A fuel := by
  rw [(uses_setup h).eq]
  rfl

/-- C114: a second run with the same arguments gives the same again. -/
theorem C114_spqe_twice (o : DescSort) (so : SortOracle) (par : Option Schedule) (A : PqeAlg) (X : Ext) (S : ScipyCount) (hS : KeepsLength S) (Nl : ℕ) (O : Opts) (irr : List ℕ)
    (irrep fuel : ℕ) (R : Report) (h : runC o so par X S Nl O irr irrep A fuel = .ok R) : runC o so par X S Nl O irr irrep R.obj.base.alg fuel = .ok R := by
  rw [C114_spqe o so par A R.obj.base.alg (.single (.run A X S hS Nl O irr irrep fuel R h))]
  exact h

/-- C114: a run of `SPQE` that can be repeated. -/
theorem C114_spqe_example (o : DescSort) (so : SortOracle) : ∃ dt : ℝ, dt ≠ 0 ∧ ∃ R,
    runC o so none stayExt stayCount 2 { dt := dt, optimizer := "bfgs" } [0, 0] 0 hopSpqe 22 = .ok R ∧
    runC o so none stayExt stayCount 2 { dt := dt, optimizer := "bfgs" } [0, 0] 0 R.obj.base.alg 22 = .ok R := by
  obtain ⟨hS, -, dt, hd, R, hR⟩ := C113_example o so
  exact ⟨dt, hd, R, hR, C114_spqe_twice o so none _ _ _ hS _ _ _ _ _ R hR⟩

end Spqe
end QF
