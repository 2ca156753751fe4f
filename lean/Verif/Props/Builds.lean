import Verif.Lemmas.ApplyWF
import Verif.Model.UccRun
import Verif.Model.QITE
import Verif.Props.EvenY
import Verif.Props.UccAnsatz
import Verif.Props.PqeRun
import Verif.Props.CommutatorCheck
import Verif.Props.QiteExample

/-!
C109: the serial and the OpenMP build of the library give the same results for molecules, under every schedule of the threads: `direct_op_exp_val` returns the same number for
Hamiltonians whose strings contain an even number of Y (C29), and nothing else in the algorithms depends on the build.
-/
namespace QF

open SQOperator (DescSort)
open QubitOperator (SortOracle)

/-- a Hamiltonian of Pauli strings on `n ≥ 1` qubits with an even number of Y in every string; every molecular Hamiltonian is one (C108) -/
structure EvenHam (n : ℕ) (H : QubitOperator) : Prop where
  pos : 1 ≤ n
  even : ∀ t ∈ H, t.2.PauliString n ∧ Even t.2.numY

theorem bind_congr_ok {α β : Type} {x : Except Exc α} {f g : α → Except Exc β} (h : ∀ a, x = .ok a → f a = g a) : (x >>= f) = (x >>= g) := by
  cases x
  · rfl
  · exact h _ rfl

/-- both builds return the same value and computers that differ in the operation counters only -/
theorem expVal_builds {n : ℕ} {H : QubitOperator} (hH : EvenHam n H) (sch : Schedule) {p q : Computer} (hp : p.WF) (hn : p.nqubit = n) (hpq : Twin p q) :
    ExRel (fun a b => a.1 = b.1 ∧ Twin a.2 b.2) (p.directOpExpVal none H) (q.directOpExpVal (some sch) H) := by
  subst hn
  have hq := hpq.wf hp
  obtain ⟨q', e1, hs⟩ := C29_direct_op p H hp fun t ht => ⟨(hH.even t ht).1.fits, fun g hg => ((hH.even t ht).1.gates g hg).exact⟩
  obtain ⟨-, -, e2⟩ := C29_builds_agree_partial q sch H hq (by rw [← hpq.nqubit]; exact hH.pos) (by rw [← hpq.nqubit]; exact hH.even)
  rw [e1, e2, ← hpq.nqubit, ← hpq.psi]
  refine ⟨rfl, ?_⟩
  have t : Twin p q' := ⟨hs.nqubit.symm, by rw [hp.nbasis, hs.wf.nbasis, hs.nqubit], hs.coeff.symm, by rw [hp.new, hs.wf.new, hs.nqubit]⟩
  exact ⟨t.nqubit.symm.trans hpq.nqubit, t.nbasis.symm.trans hpq.nbasis, t.coeff.symm.trans hpq.coeff, t.new.symm.trans hpq.new⟩

theorem Twin.refl (q : Computer) : Twin q q := ⟨rfl, rfl, rfl, rfl⟩

theorem expVal_value {n : ℕ} {H : QubitOperator} (hH : EvenHam n H) (sch : Schedule) {q : Computer} (hq : q.WF) (hn : q.nqubit = n) {β : Type}
    {f g : ℂ × Computer → Except Exc β} (h : ∀ v a b, f (v, a) = g (v, b)) : (q.directOpExpVal (some sch) H >>= f) = (q.directOpExpVal none H >>= g) := by
  refine (ExRel.eq ?_).symm
  refine (expVal_builds hH sch hq hn (Twin.refl q)).bind fun a b hab => ?_
  obtain ⟨v, a⟩ := a
  obtain ⟨w, b⟩ := b
  cases (show v = w from hab.1)
  rw [h v b a]
  cases g (v, a) <;> rfl

/-- what a UCC algorithm object needs for C109: its computer, if any, is well formed and fits, and the Hamiltonian is as above -/
structure UccAlg.BuildFree (A : UccAlg) : Prop where
  wf : A.initialComputer.WF
  size : A.initialComputer.nqubit = A.nqb
  ham : EvenHam A.nqb A.ham

theorem UccAlg.BuildFree.of_ready {A : UccAlg} (hR : A.Ready) (hH : EvenHam A.nqb A.ham) : A.BuildFree := ⟨hR.wf, hR.size, hH⟩

theorem UccAlg.BuildFree.mono {A B : UccAlg} (h : A.BuildFree) (hn : B.nqb = A.nqb) (hc : B.computer = A.computer) (hh : B.ham = A.ham) : B.BuildFree := by
  have hi : B.initialComputer = A.initialComputer := by unfold UccAlg.initialComputer; rw [hn, hc]
  exact ⟨by rw [hi]; exact h.wf, by rw [hi, hn]; exact h.size, by rw [hn, hh]; exact h.ham⟩

/-- C109: `energy_feval` does not depend on the build or the schedule -/
theorem C109_energy (o : DescSort) (so : SortOracle) {A : UccAlg} (h : A.BuildFree) (sch : Schedule) (t : List ℝ) :
    A.energyFeval o so (some sch) t = A.energyFeval o so none t := by
  unfold UccAlg.energyFeval UccAlg.measureEnergy
  refine bind_congr_ok fun U _ => bind_congr_ok fun q e => ?_
  obtain ⟨w, n⟩ := applyCircuit_wf h.wf e
  exact expVal_value h.ham sch w (n.trans h.size) fun _ _ _ => rfl

/-- C109: nor do the single-particle energies -/
theorem C109_orb_energies {A : PqeAlg} (hH : EvenHam A.nqb A.ham) (sch : Schedule) (hf : Option (List ℝ)) :
    Moments.buildOrbEnergies (some sch) A hf = Moments.buildOrbEnergies none A hf := by
  unfold Moments.buildOrbEnergies
  cases hf with
  | some l => rfl
  | none =>
    refine bind_congr_ok fun q e => ?_
    obtain ⟨w, n⟩ := applyCircuit_wf (Computer.WF.init A.nqb) e
    refine expVal_value hH sch w n fun v _ _ => ?_
    dsimp only
    refine congrArg (fun f => List.mapM f _) (funext fun i => ?_)
    refine bind_congr_ok fun q e => bind_congr_ok fun g _ => bind_congr_ok fun q' e' => ?_
    obtain ⟨w, n⟩ := applyCircuit_wf (Computer.WF.init A.nqb) e
    obtain ⟨w', n'⟩ := applyGate_wf w e'
    exact expVal_value hH sch w' (n'.trans n) fun _ _ _ => rfl

/-- C109: nor do the space and the denominators of the moment corrections -/
theorem C109_moments (o : DescSort) {A : PqeAlg} (hH : EvenHam A.nqb A.ham) (sch : Schedule) (orbIrreps : List ℕ) (orbE : List ℂ) (rank : ℤ) :
    Moments.constructSpace o (some sch) A orbIrreps orbE rank = Moments.constructSpace o none A orbIrreps orbE rank := by
  unfold Moments.constructSpace
  refine bind_congr_ok fun m _ => bind_congr_ok fun S _ => ?_
  have h : ∀ op, Moments.epsteinNesbet o (some sch) A op = Moments.epsteinNesbet o none A op := by
    intro op
    unfold Moments.epsteinNesbet
    refine bind_congr_ok fun q e => bind_congr_ok fun Q _ => bind_congr_ok fun q' e' => ?_
    obtain ⟨w, n⟩ := applyCircuit_wf (Computer.WF.init A.nqb) e
    obtain ⟨w', n'⟩ := applyOperator_wf w e'
    exact expVal_value hH sch w' (n'.trans n) fun _ _ _ => rfl
  simp only [h]

/-- what an algorithm object needs -/
structure AlgObj.BuildFree (A : AlgObj) : Prop where
  wf : ∀ q, A.computer = some q → q.WF ∧ q.nqubit = A.nqb
  ham : EvenHam A.nqb A.ham

theorem AlgObj.BuildFree.ucc {A : AlgObj} (h : A.BuildFree) {U : UccAlg} (h1 : U.nqb = A.nqb) (h2 : U.computer = A.computer) (h3 : U.ham = A.ham) : U.BuildFree := by
  have hi : U.initialComputer.WF ∧ U.initialComputer.nqubit = A.nqb := by
    unfold UccAlg.initialComputer
    rw [h1, h2]
    cases hc : A.computer with
    | none => exact ⟨Computer.WF.init _, rfl⟩
    | some q => exact h.wf q hc
  exact ⟨hi.1, hi.2.trans h1.symm, by rw [h1, h3]; exact h.ham⟩

theorem startAnsatz_keeps {N : SQOpPool.NextPerm} {o : DescSort} {fuel : ℕ} {A : AlgObj} {a : AlgArgs} {t : PoolArg} {U : UccAlg} (e : startAnsatz N o fuel A a t = .ok U) :
    U.nqb = A.nqb ∧ U.computer = A.computer ∧ U.ham = A.ham := by
  unfold startAnsatz at e
  obtain ⟨P, -, e⟩ := bindOk e
  obtain ⟨P', -, e⟩ := bindOk e
  cases e
  exact ⟨rfl, rfl, rfl⟩

/-- C109: a whole run of UCCNVQE -/
theorem C109_uccnvqe (N : SQOpPool.NextPerm) (o : DescSort) (so : SortOracle) (sch : Schedule) (fuel : ℕ) (X : UccRunExt) (O : UccRunOpts) (A : AlgObj) (hA : A.BuildFree)
    (a : AlgArgs) (t : PoolArg) (hf : Option (List ℝ)) : uccnvqeRun N o so (some sch) fuel X O A a t hf = uccnvqeRun N o so none fuel X O A a t hf := by
  unfold uccnvqeRun
  refine bind_congr_ok fun U e => ?_
  obtain ⟨h1, h2, h3⟩ := startAnsatz_keeps e
  have hU := hA.ucc h1 h2 h3
  have hs : vqeSolve o so (some sch) X O A hf U = vqeSolve o so none X O A hf U := by
    unfold vqeSolve AlgObj.orbE vqeJacobiEnv
    simp only [C109_energy o so hU sch]
    rw [C109_orb_energies (A := A.pqe U) (by show EvenHam U.nqb U.ham; exact hU.ham) sch hf]
  rw [hs]

/-- C109: a whole run of UCCNPQE -/
theorem C109_uccnpqe (N : SQOpPool.NextPerm) (o : DescSort) (so : SortOracle) (sch : Schedule) (fuel : ℕ) (X : UccRunExt) (O : UccRunOpts) (A : AlgObj) (hA : A.BuildFree)
    (a : AlgArgs) (t : PoolArg) (hf : Option (List ℝ)) : uccnpqeRun N o so (some sch) fuel X O A a t hf = uccnpqeRun N o so none fuel X O A a t hf := by
  unfold uccnpqeRun
  by_cases h : a.statePrep ≠ "occupation_list"
  · rw [if_pos h, if_pos h]
  rw [if_neg h, if_neg h]
  refine bind_congr_ok fun U e => ?_
  obtain ⟨h1, h2, h3⟩ := startAnsatz_keeps e
  have hU := hA.ucc h1 h2 h3
  dsimp only
  refine bind_congr_ok fun dets _ => ?_
  have hs : ∀ orbE, pqeSolve o so (some sch) X O orbE (A.pqe U) dets = pqeSolve o so none X O orbE (A.pqe U) dets := by
    intro orbE
    have hU' : (A.pqe U).toUccAlg.BuildFree := hU
    unfold pqeSolve pqeJacobiEnv
    simp only [C109_energy o so hU' sch]
  have ho : A.orbE (some sch) (A.pqe U).toUccAlg hf = A.orbE none (A.pqe U).toUccAlg hf := by
    unfold AlgObj.orbE
    rw [C109_orb_energies (A := A.pqe (A.pqe U).toUccAlg) (by show EvenHam U.nqb U.ham; exact hU.ham) sch hf]
  rw [ho]
  refine bind_congr_ok fun orbE _ => ?_
  rw [hs]

/-- C109: a whole run of ADAPT-VQE, for every optimizer -/
theorem C109_adapt (o : DescSort) (so : SortOracle) (sch : Schedule) (S : Solver) (O : AdaptOpts) {A : UccAlg} (hA : A.BuildFree) :
    Adapt.run o so (some sch) S O A = Adapt.run o so none S O A := by
  have hsolve : ∀ st : AdaptState, st.ucc.BuildFree → Adapt.solve o so (some sch) S st = Adapt.solve o so none S st := by
    intro st h
    unfold Adapt.solve
    rw [C109_energy o so h sch]
  have hupd : ∀ (st st' : AdaptState), st.ucc.BuildFree → Adapt.updateAnsatz o so O st = .ok st' → st'.ucc.BuildFree := by
    intro st st' h e
    unfold Adapt.updateAnsatz at e
    obtain ⟨g, -, e⟩ := bindOk e
    obtain ⟨s, -, e⟩ := bindOk e
    dsimp only at e
    split at e
    · obtain ⟨x, -, e⟩ := bindOk e
      cases e; exact h
    · obtain ⟨x, -, e⟩ := bindOk e
      cases e; exact h.mono rfl rfl rfl
  have hloop : ∀ (k : ℕ) (st : AdaptState), st.ucc.BuildFree → Adapt.loop o so (some sch) S O k st = Adapt.loop o so none S O k st := by
    intro k
    induction k with
    | zero =>
      intro st h
      unfold Adapt.loop
      refine bind_congr_ok fun st' e => ?_
      rw [hsolve st' (hupd st st' h e)]
    | succ k ih =>
      intro st h
      unfold Adapt.loop
      refine bind_congr_ok fun st' e => ?_
      by_cases hc : st'.converged = true
      · simp only [hc, if_true]
      · simp only [hc]
        rw [hsolve st' (hupd st st' h e)]
        refine bind_congr_ok fun st2 e2 => ih st2 ?_
        unfold Adapt.solve at e2
        obtain ⟨x, -, e2⟩ := bindOk e2
        obtain ⟨y, -, e2⟩ := bindOk e2
        cases e2
        exact (hupd st st' h e).mono rfl rfl rfl
  unfold Adapt.run
  dsimp only
  have h0 : ({ A with tops := [], tamps := [] } : UccAlg).BuildFree := hA.mono rfl rfl rfl
  rw [C109_energy o so h0 sch]
  refine bind_congr_ok fun e _ => ?_
  rw [hloop _ _ h0]

/-- the fields that decide the energy are those of `A` -/
def SameFields (A B : UccAlg) : Prop := B.nqb = A.nqb ∧ B.computer = A.computer ∧ B.ham = A.ham

theorem selSingle_same {d : List (ℕ × ℕ)} {st : Spqe.State} : ∀ (l : List (ℝ × ℕ)) (st' : Spqe.State), Spqe.selSingle d st l = .ok st' → SameFields st.alg.toUccAlg st'.alg.toUccAlg := by
  intro l
  induction l with
  | nil => intro st' e; cases e; exact ⟨rfl, rfl, rfl⟩
  | cons p l ih =>
    intro st' e
    unfold Spqe.selSingle at e
    obtain ⟨m, -, e⟩ := bindOk e
    split at e
    · obtain ⟨nb, -, e⟩ := bindOk e
      cases e; exact ⟨rfl, rfl, rfl⟩
    · exact ih st' e

theorem insertOps_same (A : PqeAlg) (l : List ℕ) : SameFields A.toUccAlg (l.foldl Spqe.insertOp A).toUccAlg := by
  induction l generalizing A with
  | nil => exact ⟨rfl, rfl, rfl⟩
  | cons m l ih => obtain ⟨h1, h2, h3⟩ := ih (Spqe.insertOp A m); exact ⟨h1, h2, h3⟩

theorem convStatus_alg (O : Spqe.Opts) (st : Spqe.State) : (Spqe.convStatus O st).alg = st.alg := by
  unfold Spqe.convStatus
  split
  · rfl
  · split
    · rfl
    · split <;> rfl

theorem spqe_update (o : DescSort) (so : SortOracle) (sch : Schedule) (X : Spqe.Ext) (O : Spqe.Opts) (eiH : Circuit) (st : Spqe.State) (h : st.alg.toUccAlg.BuildFree) :
    Spqe.updateAnsatz o so (some sch) X O eiH st = Spqe.updateAnsatz o so none X O eiH st ∧
      ∀ st', Spqe.updateAnsatz o so none X O eiH st = .ok st' → SameFields st.alg.toUccAlg st'.alg.toUccAlg := by
  unfold Spqe.updateAnsatz
  cases hO : O.omega with
  | none =>
    refine ⟨by dsimp only; unfold Spqe.updateInf; rw [C109_energy o so h sch], fun st' e => ?_⟩
    unfold Spqe.updateInf at e
    obtain ⟨_, -, e⟩ := bindOk e
    obtain ⟨c, -, e⟩ := bindOk e
    obtain ⟨rs, -, e⟩ := bindOk e
    dsimp only at e
    split at e
    · cases e; rw [convStatus_alg]; exact ⟨rfl, rfl, rfl⟩
    · obtain ⟨st2, e2, e⟩ := bindOk e
      cases e
      show SameFields _ st2.alg.toUccAlg
      split at e2
      · obtain ⟨s, -, e2⟩ := bindOk e2
        cases e2
        have := insertOps_same st.alg s.ops.reverse
        dsimp only
        rwa [convStatus_alg]
      · have := selSingle_same _ _ e2
        rwa [convStatus_alg] at this
  | some M =>
    refine ⟨by dsimp only; unfold Spqe.updateSampled; rw [C109_energy o so h sch], fun st' e => ?_⟩
    dsimp only at e
    unfold Spqe.updateSampled at e
    obtain ⟨_, -, e⟩ := bindOk e
    obtain ⟨c, -, e⟩ := bindOk e
    obtain ⟨dets, -, e⟩ := bindOk e
    split at e
    · cases e
    · dsimp only at e
      split at e
      · obtain ⟨_, -, e⟩ := bindOk e
        obtain ⟨_, -, e⟩ := bindOk e
        cases e; exact ⟨rfl, rfl, rfl⟩
      · obtain ⟨st2, e2, e⟩ := bindOk e
        cases e
        show SameFields _ st2.alg.toUccAlg
        refine foldlM_keep (fun s : Spqe.State => SameFields st.alg.toUccAlg s.alg.toUccAlg) _ ?_ _ st2 (by exact ⟨rfl, rfl, rfl⟩) e2
        intro s hs mu s' e
        unfold Spqe.sampleStep at e
        split at e
        · obtain ⟨m, -, e⟩ := bindOk e
          obtain ⟨nb, -, e⟩ := bindOk e
          cases e; exact hs
        · cases e; exact hs

/-- C109: a whole run of SPQE, with a bound on the number of iterations of the loop that is passed as `fuel` -/
theorem C109_spqe (o : DescSort) (so : SortOracle) (sch : Schedule) (X : Spqe.Ext) (O : Spqe.Opts) (occList : Bool) (orbIrreps : List ℕ) (irrep : ℕ) {A : PqeAlg}
    (hA : A.toUccAlg.BuildFree) (fuel : ℕ) : Spqe.run o so (some sch) X O occList orbIrreps irrep A fuel = Spqe.run o so none X O occList orbIrreps irrep A fuel := by
  have hloop : ∀ (eiH : Circuit) (k : ℕ) (st : Spqe.State), st.alg.toUccAlg.BuildFree → Spqe.loop o so (some sch) X O eiH k st = Spqe.loop o so none X O eiH k st := by
    intro eiH k
    induction k with
    | zero => intro st _; rfl
    | succ k ih =>
      intro st h
      unfold Spqe.loop
      split
      · rfl
      obtain ⟨u1, u2⟩ := spqe_update o so sch X O eiH st h
      rw [u1]
      refine bind_congr_ok fun st1 e1 => ?_
      have h1 : st1.alg.toUccAlg.BuildFree := h.mono (u2 st1 e1).1 (u2 st1 e1).2.1 (u2 st1 e1).2.2
      split
      · rfl
      have hs : Spqe.solve o so (some sch) X O st1 = Spqe.solve o so none X O st1 := by
        unfold Spqe.solve Spqe.solveFor Spqe.jacobiEnv
        simp only [C109_energy o so h1 sch]
      rw [hs]
      refine bind_congr_ok fun st2 e2 => ih _ ?_
      unfold Spqe.solve at e2
      obtain ⟨y, -, e2⟩ := bindOk e2
      cases e2
      exact h1.mono rfl rfl rfl
  unfold Spqe.run
  split
  · rfl
  refine bind_congr_ok fun E _ => bind_congr_ok fun P _ => ?_
  dsimp only
  rw [hloop]
  exact hA.mono rfl rfl rfl

/-- two states of QITE that differ in the operation counters of the computer only -/
structure QiteTwin (n : ℕ) (p q : QiteState) : Prop where
  rest : q = { p with qc := q.qc }
  qc : Twin p.qc q.qc
  wf : p.qc.WF
  size : p.qc.nqubit = n

theorem qite_keep {A : QiteAlg} {p q : QiteState} (h : QiteTwin A.nqb p q) : ExRel (QiteTwin A.nqb) (A.keep p) (A.keep q) := by
  unfold QiteAlg.keep
  rw [← h.qc.coeff]
  refine ExRel.same _ fun r => ?_
  exact ⟨by rw [h.rest], h.qc, h.wf, h.size⟩

theorem qite_step {A : QiteAlg} (hH : EvenHam A.nqb A.ham) (sch : Schedule) (ls : LstsqOracle) (sig : QubitOpPool) {p q : QiteState} (h : QiteTwin A.nqb p q) :
    ExRel (QiteTwin A.nqb) (A.step ls none sig p) (A.step ls (some sch) sig q) := by
  have hr := h.rest
  have hc := h.qc.coeff
  have hE : q.ekb = p.ekb := by rw [hr]
  have hb : ∀ E, A.buildB sig q.qc E = A.buildB sig p.qc E := fun E => by unfold QiteAlg.buildB; rw [hc]
  have hg : ∀ ops, A.gram q.qc ops = A.gram p.qc ops := fun ops => by unfold QiteAlg.gram QiteAlg.gramStep; rw [hc]
  unfold QiteAlg.step
  simp only [hE, hb, hg]
  refine ExRel.same _ fun E => ExRel.same _ fun b => ExRel.same _ fun sel => ExRel.same _ fun ops => ExRel.same _ fun S => ExRel.same _ fun T => ExRel.same _ fun r => ?_
  obtain ⟨C, ph⟩ := r
  dsimp only
  have ht := applyCircuit_twin h.qc C
  cases e1 : p.qc.applyCircuit C with
  | error x =>
    rw [e1] at ht
    cases e2 : q.qc.applyCircuit C with
    | error y => rw [e2] at ht; exact ht
    | ok y => rw [e2] at ht; exact ht.elim
  | ok x =>
    rw [e1] at ht
    cases e2 : q.qc.applyCircuit C with
    | error y => rw [e2] at ht; exact ht.elim
    | ok y =>
      rw [e2] at ht
      obtain ⟨w, n⟩ := applyCircuit_wf h.wf e1
      have hx : x.nqubit = A.nqb := n.trans h.size
      rw [except_ok_bind, except_ok_bind]
      have hv := expVal_builds hH sch w hx ht
      obtain ⟨q', e3, hs⟩ := C29_direct_op x A.ham w fun t ht => by
        rw [hx]; exact ⟨(hH.even t ht).1.fits, fun g hg => ((hH.even t ht).1.gates g hg).exact⟩
      rw [e3] at hv ⊢
      cases e4 : y.directOpExpVal (some sch) A.ham with
      | error z => rw [e4] at hv; exact hv.elim
      | ok z =>
        rw [e4] at hv
        obtain ⟨v, z⟩ := z
        obtain ⟨hv1, hv2⟩ := hv
        refine ⟨?_, hv2, hs.wf, hs.nqubit.trans hx⟩
        dsimp only at hv1 ⊢
        rw [hr, hv1]

/-- C109: the evolution of QITE and a whole run -/
theorem C109_qite_evolve {A : QiteAlg} (hH : EvenHam A.nqb A.ham) (sch : Schedule) (ls : LstsqOracle) (sig : QubitOpPool) (E0 : ℝ) (nb : ℤ) :
    ExRel (QiteTwin A.nqb) (A.evolve ls none sig E0 nb) (A.evolve ls (some sch) sig E0 nb) := by
  unfold QiteAlg.evolve
  dsimp only
  cases e1 : (Computer.init A.nqb).applyCircuit (Circuit.addCircuit [] A.uprep) with
  | error x => rfl
  | ok x =>
    obtain ⟨w, n⟩ := applyCircuit_wf (Computer.WF.init A.nqb) e1
    rw [except_ok_bind, except_ok_bind]
    have hfold : ∀ a b, QiteTwin A.nqb a b → ExRel (QiteTwin A.nqb) ((List.range' 1 (nb - 1).toNat).foldlM (A.loopStep ls none sig) a)
        ((List.range' 1 (nb - 1).toNat).foldlM (A.loopStep ls (some sch) sig) b) := by
      intro a b hab
      refine ExRel.foldlM _ ?_ a b hab
      intro a b kb _ hab
      unfold QiteAlg.loopStep
      refine (qite_step hH sch ls sig hab).bind fun a b hab => ?_
      split
      · split
        · rfl
        · split
          · exact qite_keep hab
          · exact hab
      · exact hab
    split
    · exact (qite_keep ⟨rfl, Twin.refl _, w, n⟩).bind hfold
    · exact hfold _ _ ⟨rfl, Twin.refl _, w, n⟩

/-- C109: a whole run of QITE: the same exception, or the same results up to the operation counters of the computer -/
theorem C109_qite (N : SQOpPool.NextPerm) (o : DescSort) (so : SortOracle) (fuel : ℕ) (ls : LstsqOracle) (eig : EigOracle) (sch : Schedule) {A : QiteAlg}
    (hH : EvenHam A.nqb A.ham) :
    ExRel (fun a b => QiteTwin A.nqb a.1 b.1 ∧ a.2 = b.2) (QiteAlg.run N o so fuel ls eig none A) (QiteAlg.run N o so fuel ls eig (some sch) A) := by
  unfold QiteAlg.run
  refine ExRel.same _ fun nb => ?_
  cases e1 : (Computer.init A.nqb).applyCircuit A.uprep with
  | error x => rfl
  | ok x =>
    obtain ⟨w, n⟩ := applyCircuit_wf (Computer.WF.init A.nqb) e1
    rw [except_ok_bind, except_ok_bind]
    refine (expVal_builds hH sch w n (Twin.refl x)).bind fun a b hab => ?_
    obtain ⟨v, a⟩ := a
    obtain ⟨v', b⟩ := b
    cases (show v = v' from hab.1)
    dsimp only
    refine ExRel.same _ fun sig => ?_
    refine (C109_qite_evolve hH sch ls sig v.re nb).bind fun st st' h => ?_
    have he : st'.ekb = st.ekb := by rw [h.rest]
    have hl : QiteAlg.qlanczos eig st' = QiteAlg.qlanczos eig st := by rw [h.rest]; rfl
    simp only [he, hl]
    refine ExRel.same _ fun E => ?_
    split
    · exact ExRel.same _ fun r => ⟨h, rfl⟩
    · exact ⟨h, rfl⟩

theorem buildFree_of {cls : AlgClass} {S : QSystem} {H : QubitOperator} {a : AlgArgs} {A : AlgObj} (hH : ∀ t ∈ S.hamiltonian, (t.2.map Gate.target).Nodup ∧ Even t.2.numY)
    (hS : S.hamiltonian = H) (hp : a.penalty = none) (h : ansatzInit cls S a = .ok A) (h1 : 1 ≤ A.nqb) (hs : ArgsSound S a A.nqb) : A.BuildFree ∧ A.ham = H := by
  obtain ⟨hR, -, hP⟩ := C96_ready cls S a A h hs (.name "SD") {} [] []
  obtain ⟨A0, e0, -, -, hpen⟩ := ansatz_base h
  have hham : A.ham = S.hamiltonian := by
    rcases hpen with ⟨-, e, -⟩ | ⟨v, _, _, _, e, -⟩
    · rw [e]; exact (C96_object cls S a A0 e0).2.2.2.2.1
    · rw [hp] at e; cases e
  refine ⟨⟨fun q hq => ?_, h1, fun t ht => ?_⟩, hham.trans hS⟩
  · have : (A.ucc a (.name "SD") {} [] []).initialComputer = q := by unfold UccAlg.initialComputer AlgObj.ucc; rw [hq]; rfl
    exact ⟨this ▸ hR.wf, this ▸ hR.size⟩
  · have := hH t (hham ▸ ht)
    exact ⟨⟨fun g hg => isPauli_circuits hP.1 t ht g hg, this.1, fits_of_numQubits hP.2 t ht⟩, this.2⟩

/-- C109 for molecules built with psi4, without penalty: every constructed algorithm object meets the hypothesis of the theorems above -/
theorem C109_molecule (o : DescSort) (D : PsiData) (hI : RealIntegrals D.oei D.tei) (M : PsiMolecule) (e : createPsiMol o D = .ok M) (cls : AlgClass) (S : QSystem)
    (hS : S.hamiltonian = M.hamiltonian) (a : AlgArgs) (hp : a.penalty = none) (A : AlgObj) (h : ansatzInit cls S a = .ok A) (h1 : 1 ≤ A.nqb) (hs : ArgsSound S a A.nqb) :
    A.BuildFree ∧ A.ham = M.hamiltonian :=
  buildFree_of (fun t ht => ⟨(C108_psi o D hI M e t (hS ▸ ht)).2.1.distinct, (C108_psi o D hI M e t (hS ▸ ht)).2.2⟩) hS hp h h1 hs

/-- C109 for molecules read from a file -/
theorem C109_molecule_external (o : DescSort) (D : ExternalData) (hv : D.Valid) (hi1 : ∀ p q, oneInt D p q = oneInt D q p)
    (hi2 : ∀ p q r s, twoInt D p q r s = twoInt D r s p q) (M : Molecule) (e : createExternalMol o D = .ok M) (cls : AlgClass) (S : QSystem)
    (hS : S.hamiltonian = M.hamiltonian) (a : AlgArgs) (hp : a.penalty = none) (A : AlgObj) (h : ansatzInit cls S a = .ok A) (h1 : 1 ≤ A.nqb) (hs : ArgsSound S a A.nqb) :
    A.BuildFree ∧ A.ham = M.hamiltonian :=
  buildFree_of (fun t ht => ⟨(C108_external o D hv hi1 hi2 M e t (hS ▸ ht)).2.1.distinct, (C108_external o D hv hi1 hi2 M e t (hS ▸ ht)).2.2⟩) hS hp h h1 hs

/-- C109: the hypothesis on the number of Y is needed: on a Hamiltonian whose strings all have an odd number of Y the two builds return opposite values -/
theorem C109_odd (q : Computer) (sch : Schedule) (H : QubitOperator) (hq : q.WF) (h0 : 1 ≤ q.nqubit) (hH : ∀ t ∈ H, t.2.PauliString q.nqubit ∧ Odd t.2.numY) :
    ∃ v q', q.directOpExpVal none H = .ok (v, q') ∧ q.directOpExpVal (some sch) H = .ok (-v, q) := by
  obtain ⟨q', e, _⟩ := C29_direct_op q H hq (fun t ht => ⟨(hH t ht).1.fits, fun g hg => ((hH t ht).1.gates g hg).exact⟩)
  refine ⟨_, q', e, ?_⟩
  rw [C29_parallel_value q sch H hq h0 (fun t ht => (hH t ht).1), inner_op, List.sum_neg]
  congr 3
  rw [List.map_map]
  apply List.map_congr_left
  intro t ht
  simp [(hH t ht).2.neg_one_pow]

/-- The hypotheses are met: UCCNVQE on four qubits runs in the serial build and gives the same result in the parallel build under every schedule; the objects of the examples of
ADAPT-VQE and QITE qualify. -/
theorem C109_example (N : SQOpPool.NextPerm) (o : DescSort) (so : SortOracle) :
    (∃ A fuel X U e c, ansatzInit .uccnvqe fourQubits {} = .ok A ∧ A.BuildFree ∧ ∀ sch : Schedule,
      uccnvqeRun N o so none fuel X { optimizer := "BFGS", optMaxiter := 10, optThresh := 1e-6, diisMaxDim := 8 } A {} (.name "SD") none = .ok (U, e, c) ∧
      uccnvqeRun N o so (some sch) fuel X { optimizer := "BFGS", optMaxiter := 10, optThresh := 1e-6, diisMaxDim := 8 } A {} (.name "SD") none = .ok (U, e, c)) ∧
    exampleAlg.BuildFree ∧ EvenHam QiteAlg.demo.nqb QiteAlg.demo.ham := by
  refine ⟨?_, ?_, ?_⟩
  · obtain ⟨A, hA, hs, hn, -, -, keys, -, -, fuel, -, X, -, -, e, c, hrun⟩ := C97_example N o so
    have hB : A.BuildFree := (buildFree_of (S := fourQubits) (H := fourQubits.hamiltonian) (by
      intro t ht
      simp only [fourQubits, List.mem_cons, List.not_mem_nil, or_false] at ht
      rcases ht with rfl | rfl <;> simp [Circuit.numY, gX, gZ]) rfl rfl hA (by omega) hs).1
    exact ⟨A, fuel, X, _, e, c, hA, hB, fun sch => ⟨hrun, by rw [C109_uccnvqe N o so sch fuel X _ A hB]; exact hrun⟩⟩
  · obtain ⟨_, _, hR, _⟩ := C71_example
    exact .of_ready hR ⟨by decide, fun t ht => (exampleAlg_ham t ht).2⟩
  · refine ⟨by decide, fun t ht => ⟨(QiteAlg.demo_ready.ham t ht).2, ?_⟩⟩
    simp only [QiteAlg.demo, List.mem_cons, List.not_mem_nil, or_false] at ht
    subst ht; simp [Circuit.numY, gX]

end QF
