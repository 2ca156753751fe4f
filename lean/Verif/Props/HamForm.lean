import Verif.Props.ZeroUcc
import Verif.Props.ResidualSq
import Verif.Lemmas.Interaction
import Verif.Props.ComputerEq
import Verif.Props.TrotterConv

/-!
C124: the way a Hamiltonian is written (order of the terms, terms split or combined, order of the letters of a string) does not matter where it is only applied.
-/
namespace QF

open SQOperator (DescSort)
open QubitOperator (SortOracle)

/-- two ways of writing the same operator on `n` qubits, both from gates that the simulator applies exactly -/
structure SameOp (n : ℕ) (H H' : QubitOperator) : Prop where
  op : H'.op = H.op
  fits : ∀ t ∈ H, t.2.Fits n ∧ ∀ g ∈ t.2, ExactGate g
  fits' : ∀ t ∈ H', t.2.Fits n ∧ ∀ g ∈ t.2, ExactGate g

/-- the terms in another order -/
theorem SameOp.perm {n : ℕ} {H H' : QubitOperator} (hH : ∀ t ∈ H, t.2.Fits n ∧ ∀ g ∈ t.2, ExactGate g) (h : H.Perm H') : SameOp n H H' :=
  ⟨by unfold QubitOperator.op; exact ((h.map _).sum_eq).symm, hH, fun t ht => hH t (h.mem_iff.2 ht)⟩

/-- a coefficient split into two terms with the same string -/
theorem SameOp.split {n : ℕ} {pre post : QubitOperator} {c : Circuit} {z w : ℂ} (hH : ∀ t ∈ pre ++ (z + w, c) :: post, t.2.Fits n ∧ ∀ g ∈ t.2, ExactGate g) :
    SameOp n (pre ++ (z + w, c) :: post) (pre ++ (z, c) :: (w, c) :: post) := by
  refine ⟨?_, hH, ?_⟩
  · unfold QubitOperator.op
    simp only [List.map_append, List.map_cons, List.sum_append, List.sum_cons, add_smul]
    abel
  · intro t ht
    have hc := hH (z + w, c) (by simp)
    rcases List.mem_append.1 ht with h | h
    · exact hH t (by simp [h])
    · rcases List.mem_cons.1 h with rfl | h
      · exact hc
      · rcases List.mem_cons.1 h with rfl | h
        · exact hc
        · exact hH t (by simp [h])

/-- gates that pairwise have no common qubit, in any order -/
theorem op_letters {c c' : Circuit} (h : c.Perm c') : c.Pairwise Disj → c'.op = c.op := by
  induction h with
  | nil => intro _; rfl
  | cons g _ ih => intro hp; rw [Circuit.op_cons, Circuit.op_cons, ih (List.pairwise_cons.1 hp).2]
  | swap g g' l =>
    intro hp
    have hd : Disj g' g := (List.pairwise_cons.1 hp).1 g (by simp)
    simp only [Circuit.op_cons, mul_assoc]
    rw [(op_comm_disj hd).eq]
  | trans h1 _ ih1 ih2 =>
    intro hp
    have hs : Std.Symm Disj := ⟨fun a b h => ⟨h.1.symm, h.2.2.1.symm, h.2.1.symm, h.2.2.2.symm⟩⟩
    rw [ih2 ((h1.pairwise_iff (fun {a b} h => hs.symm a b h)).1 hp), ih1 hp]
/-- the letters of the Pauli strings in another order -/
theorem SameOp.letters {n : ℕ} {H H' : QubitOperator} (hH : ∀ t ∈ H, t.2.PauliString n) (h : List.Forall₂ (fun t t' => t'.1 = t.1 ∧ t.2.Perm t'.2) H H') : SameOp n H H' := by
  induction h with
  | nil => exact ⟨rfl, by simp, by simp⟩
  | @cons t t' H H' ht _ ih =>
    obtain ⟨e1, e2⟩ := ht
    have k := ih fun s hs => hH s (List.mem_cons_of_mem _ hs)
    have p := hH t (by simp)
    have hd : t.2.Pairwise Disj := by
      have := List.pairwise_map.1 p.distinct
      refine this.imp_of_mem fun {a b} ha hb hab => ?_
      have ca := (p.gates a ha).control
      have cb := (p.gates b hb).control
      exact ⟨hab, by rw [cb]; exact hab, by rw [ca]; exact hab, by rw [ca, cb]; exact hab⟩
    refine ⟨?_, ?_, ?_⟩
    · have := k.op
      unfold QubitOperator.op at this ⊢
      rw [List.map_cons, List.map_cons, List.sum_cons, List.sum_cons, this, e1, op_letters e2 hd]
    · intro s hs
      rcases List.mem_cons.1 hs with rfl | hs
      · exact ⟨p.fits, fun g hg => (p.gates g hg).exact⟩
      · exact k.fits s hs
    · intro s hs
      rcases List.mem_cons.1 hs with rfl | hs
      · exact ⟨fun g hg => p.fits g (e2.mem_iff.2 hg), fun g hg => (p.gates g (e2.mem_iff.2 hg)).exact⟩
      · exact k.fits' s hs

/-- two steps of rewriting -/
theorem SameOp.trans {n : ℕ} {H H' H'' : QubitOperator} (h : SameOp n H H') (h' : SameOp n H' H'') : SameOp n H H'' := ⟨h'.op.trans h.op, h.fits, h'.fits'⟩

theorem SameOp.symm {n : ℕ} {H H' : QubitOperator} (h : SameOp n H H') : SameOp n H' H := ⟨h.op.symm, h.fits', h.fits⟩

/-- a computer without its gate counts -/
def Computer.plain (q : Computer) : Computer := { q with noneOps := 0, ntwoOps := 0 }

theorem plain_bind {β : Type} {x y : Except Exc Computer} {f g : Computer → Except Exc β} (h : x.map Computer.plain = y.map Computer.plain)
    (hfg : ∀ a b, x = .ok a → y = .ok b → a.plain = b.plain → f a = g b) : (x >>= f) = (y >>= g) := by
  cases x with
  | error e =>
    cases y with
    | error e' => cases h; rfl
    | ok b => cases h
  | ok a =>
    cases y with
    | error e' => cases h
    | ok b => exact hfg a b rfl rfl (Except.ok.inj h)

theorem ok_bind_congr {α β : Type} {x : Except Exc α} {f g : α → Except Exc β} (hfg : ∀ a, x = .ok a → f a = g a) : (x >>= f) = (x >>= g) := by
  cases x with
  | error e => rfl
  | ok a => exact hfg a rfl

theorem pure_plain (r : Except Exc (List ℂ)) (f g : List ℂ → Computer) (h : ∀ l, (f l).plain = (g l).plain) :
    (r >>= fun l => pure (f l)).map Computer.plain = (r >>= fun l => pure (g l)).map Computer.plain := by
  cases r with
  | error e => rfl
  | ok l => exact congrArg Except.ok (h l)

theorem apply1_plain {a b : Computer} (h : a.plain = b.plain) (g : Gate) : (a.apply1 g).map Computer.plain = (b.apply1 g).map Computer.plain := by
  obtain ⟨n, m, c, w, i, j⟩ := a
  obtain ⟨n', m', c', w', i', j'⟩ := b
  simp only [Computer.plain, Computer.mk.injEq, and_true] at h
  obtain ⟨rfl, rfl, rfl, rfl⟩ := h
  unfold Computer.apply1
  exact pure_plain _ _ _ fun _ => rfl

theorem apply2_plain {a b : Computer} (h : a.plain = b.plain) (g : Gate) : (a.apply2 g).map Computer.plain = (b.apply2 g).map Computer.plain := by
  obtain ⟨n, m, c, w, i, j⟩ := a
  obtain ⟨n', m', c', w', i', j'⟩ := b
  simp only [Computer.plain, Computer.mk.injEq, and_true] at h
  obtain ⟨rfl, rfl, rfl, rfl⟩ := h
  unfold Computer.apply2
  simp only
  split_ifs
  · omega
  · have := pure_plain (apply2A m g.target g.control (g.mat 2 2) (g.mat 2 3) (g.mat 3 2) (g.mat 3 3) c) (fun l => ⟨n, m, l, w, i, j + 1⟩) (fun l => ⟨n, m, l, w, i', j' + 1⟩) fun _ => rfl
    rw [bind_pure, bind_pure]
    exact this
  · exact pure_plain _ _ _ fun _ => rfl
  · rfl
  · exact pure_plain (accum2 ⟨n, m, c, w, i, j⟩ g) (fun l => ⟨n, m, l, l.map fun _ => 0, i, j + 1⟩) (fun l => ⟨n, m, l, l.map fun _ => 0, i', j' + 1⟩) fun _ => rfl

theorem applyGate_plain {a b : Computer} (h : a.plain = b.plain) (g : Gate) : (a.applyGate g).map Computer.plain = (b.applyGate g).map Computer.plain := by
  unfold Computer.applyGate
  by_cases h1 : g.nqubits = 1
  · have h2 : ¬ g.nqubits = 2 := by omega
    simp only [if_pos h1, if_neg h2]
    have := apply1_plain h g
    revert this
    cases a.apply1 g <;> cases b.apply1 g <;> exact id
  · simp only [if_neg h1, pure_bind]
    split_ifs
    · exact apply2_plain h g
    · exact congrArg Except.ok h

theorem applyCircuit_plain {a b : Computer} (h : a.plain = b.plain) (C : Circuit) : (a.applyCircuit C).map Computer.plain = (b.applyCircuit C).map Computer.plain := by
  unfold Computer.applyCircuit
  induction C generalizing a b with
  | nil => exact congrArg Except.ok h
  | cons g C ih =>
    rw [List.foldlM_cons, List.foldlM_cons]
    have := applyGate_plain h g
    cases ea : a.applyGate g with
    | error e => cases eb : b.applyGate g with
      | error e' => rw [ea, eb] at this; cases this; rfl
      | ok b' => rw [ea, eb] at this; cases this
    | ok a' => cases eb : b.applyGate g with
      | error e' => rw [ea, eb] at this; cases this
      | ok b' =>
        rw [ea, eb] at this
        exact ih (Except.ok.inj this)

/-- computers with the same qubits and amplitudes differ only in their counts -/
theorem plain_ext {a b : Computer} (ha : a.WF) (hb : b.WF) (hn : a.nqubit = b.nqubit) (hp : a.psi = b.psi) : a.plain = b.plain := by
  have := (((C17_computer_eq ha hb).1.2 ⟨hn, hp⟩))
  have h := (C17_computer_eq ha hb).2.1.1 this
  rw [h]; rfl

/-- `apply_operator` does not see how the operator is written -/
theorem applyOperator_same {n : ℕ} {H H' : QubitOperator} (h : SameOp n H H') {q : Computer} (hq : q.WF) (hn : q.nqubit = n) :
    (q.applyOperator H').map Computer.plain = (q.applyOperator H).map Computer.plain := by
  subst hn
  obtain ⟨a, e1, w1, n1, p1⟩ := C24_apply_operator q H hq h.fits
  obtain ⟨b, e2, w2, n2, p2⟩ := C24_apply_operator q H' hq h.fits'
  rw [e1, e2]
  exact congrArg Except.ok (plain_ext w2 w1 (n2.trans n1.symm) (by rw [p1, p2, h.op]))

theorem directOp_same {n : ℕ} {H H' : QubitOperator} (h : SameOp n H H') {q : Computer} (hq : q.WF) (hn : q.nqubit = n) :
    ∃ v q1 q2, q.directOpExpVal none H = .ok (v, q1) ∧ q.directOpExpVal none H' = .ok (v, q2) := by
  subst hn
  obtain ⟨q1, e1, -⟩ := C29_direct_op q H hq h.fits
  obtain ⟨q2, e2, -⟩ := C29_direct_op q H' hq h.fits'
  exact ⟨_, q1, q2, e1, by rw [e2, h.op]⟩

/-- the object starts from a valid computer of its number of qubits -/
def UccAlg.Starts (A : UccAlg) : Prop := A.initialComputer.WF ∧ A.initialComputer.nqubit = A.nqb

/-- C124: `energy_feval` at any amplitudes, for any ansatz (also compact, spin-adapted, Trotterised, or one that raises an exception) -/
theorem C124_energy (o : DescSort) (so : SortOracle) (A : UccAlg) (hA : A.Starts) {H' : QubitOperator} (h : SameOp A.nqb A.ham H') (ts : List ℝ) :
    (A.withHam H').energyFeval o so none ts = A.energyFeval o so none ts := by
  unfold UccAlg.energyFeval UccAlg.measureEnergy
  refine ok_bind_congr (x := A.buildUvqc o so (some ts)) fun U _ => ok_bind_congr (x := A.initialComputer.applyCircuit U) fun q hq => ?_
  obtain ⟨w, n⟩ := applyCircuit_wf hA.1 hq
  obtain ⟨v, q1, q2, d1, d2⟩ := directOp_same h w (n.trans hA.2)
  show (q.directOpExpVal none H' >>= _) = (q.directOpExpVal none A.ham >>= _)
  rw [d1, d2]
  rfl

theorem gradVal_plain {a b : Computer} (h : a.plain = b.plain) (t : Computer) : UccAlg.gradVal a t = UccAlg.gradVal b t := by
  have : a.plain.coeff = b.plain.coeff := by rw [h]
  replace this : a.coeff = b.coeff := this
  unfold UccAlg.gradVal Computer.dot
  rw [this]

theorem gradLoop_plain (o : DescSort) (A : UccAlg) (params : List ℝ) (mu : ℕ) (K : QubitOperator) (psi : Computer) {a b : Computer} (h : a.plain = b.plain) (gs : List ℝ) :
    A.gradLoop o params mu K psi a gs = A.gradLoop o params mu K psi b gs := by
  induction mu generalizing K psi a b gs with
  | zero => rfl
  | succ mu ih =>
    unfold UccAlg.gradLoop
    refine ok_bind_congr fun t _ => ok_bind_congr fun K' _ => ok_bind_congr fun U _ => plain_bind (applyCircuit_plain h U) fun a' b' _ _ h' => ?_
    refine ok_bind_congr fun psi' _ => ok_bind_congr fun temp _ => ?_
    rw [gradVal_plain h' temp]
    exact ok_bind_congr fun g _ => ih K' psi' h' (g :: gs)

theorem gradLoop_ham (o : DescSort) (A : UccAlg) (H' : QubitOperator) (params : List ℝ) (mu : ℕ) (K : QubitOperator) (psi sig : Computer) (gs : List ℝ) :
    (A.withHam H').gradLoop o params mu K psi sig gs = A.gradLoop o params mu K psi sig gs := by
  induction mu generalizing K psi sig gs with
  | zero => rfl
  | succ mu ih =>
    unfold UccAlg.gradLoop
    refine ok_bind_congr fun t _ => ok_bind_congr (x := A.gradK o mu) fun K' _ => ok_bind_congr (x := A.undoCircuit o t mu K) fun U _ => ok_bind_congr fun sig' _ => ?_
    exact ok_bind_congr fun psi' _ => ok_bind_congr fun temp _ => ok_bind_congr fun g _ => ih K' psi' sig' (g :: gs)

/-- C124: `measure_gradient` -/
theorem C124_gradient (o : DescSort) (so : SortOracle) (A : UccAlg) (hA : A.Starts) {H' : QubitOperator} (h : SameOp A.nqb A.ham H') (ts : Option (List ℝ)) :
    (A.withHam H').measureGradient o so ts = A.measureGradient o so ts := by
  unfold UccAlg.measureGradient
  refine ok_bind_congr (x := A.buildUvqc o so ts) fun U _ => ok_bind_congr (x := A.initialComputer.applyCircuit U) fun psi hq => ?_
  obtain ⟨w, n⟩ := applyCircuit_wf hA.1 hq
  refine plain_bind (applyOperator_same h w (n.trans hA.2)) fun a b _ _ hab => ?_
  show (match A.tamps.length with | 0 => _ | M + 1 => _) = (match A.tamps.length with | 0 => _ | M + 1 => _)
  cases A.tamps.length with
  | zero => rfl
  | succ M =>
    refine ok_bind_congr (x := A.gradK o M) fun K _ => ok_bind_congr fun temp _ => ?_
    rw [gradVal_plain hab temp]
    refine ok_bind_congr fun g _ => ?_
    rw [gradLoop_ham]
    exact gradLoop_plain o A _ M K psi hab [g]

/-- C124: the gradients with respect to the pool operators, by which ADAPT-VQE chooses -/
theorem C124_pool_gradient (o : DescSort) (so : SortOracle) (A : UccAlg) (hA : A.Starts) {H' : QubitOperator} (h : SameOp A.nqb A.ham H') :
    (A.withHam H').measureGradient3 o so = A.measureGradient3 o so := by
  unfold UccAlg.measureGradient3
  refine ok_bind_congr (x := A.buildUvqc o so) fun U _ => ok_bind_congr (x := A.initialComputer.applyCircuit U) fun psi hq => ?_
  obtain ⟨w, n⟩ := applyCircuit_wf hA.1 hq
  refine plain_bind (applyOperator_same h w (n.trans hA.2)) fun a b _ _ hab => ?_
  show A.pool.mapM _ = A.pool.mapM _
  refine mapM_same fun e _ => ok_bind_congr fun K _ => ok_bind_congr fun temp _ => gradVal_plain hab temp

/-- C124: the residuals of PQE -/
theorem C124_residual (o : DescSort) (so : SortOracle) (A : PqeAlg) {H' : QubitOperator} (h : SameOp A.nqb A.ham H') (dets : List (ℕ × ℂ)) (ts : List ℝ) :
    ({ A with ham := H' } : PqeAlg).residualVector o so dets ts = A.residualVector o so dets ts := by
  unfold PqeAlg.residualVector
  show (if A.saSD = true then _ else _) = (if A.saSD = true then _ else _)
  by_cases hs : A.saSD = true
  · rw [if_pos hs, if_pos hs]
  rw [if_neg hs, if_neg hs]
  refine ok_bind_congr (x := A.ansatzCircuit o so (some ts)) fun U _ => ok_bind_congr fun q hq => ok_bind_congr fun q' hq' => ?_
  obtain ⟨w, n⟩ := applyCircuit_wf (Computer.WF.init A.nqb) hq
  obtain ⟨w', n'⟩ := applyCircuit_wf w hq'
  refine plain_bind (applyOperator_same h w' (n'.trans n)) fun a b _ _ hab => plain_bind (applyCircuit_plain hab _) fun a' b' _ _ hab' => ?_
  have : a'.plain.coeff = b'.plain.coeff := by rw [hab']
  replace this : a'.coeff = b'.coeff := this
  rw [this]

/-- the single-particle energies -/
theorem orbE_same (A : AlgObj) {H' : QubitOperator} (h : SameOp A.nqb A.ham H') (U U' : UccAlg) (h1 : U.nqb = A.nqb) (h2 : U'.nqb = A.nqb) (h3 : U.ham = A.ham) (h4 : U'.ham = H')
    (hf : Option (List ℝ)) : ({ A with ham := H' } : AlgObj).orbE none U' hf = A.orbE none U hf := by
  unfold AlgObj.orbE
  have key : Moments.buildOrbEnergies none (({ A with ham := H' } : AlgObj).pqe U') hf = Moments.buildOrbEnergies none (A.pqe U) hf := by
    unfold Moments.buildOrbEnergies
    cases hf with
    | some l => rfl
    | none =>
      have z1 : (A.pqe U).nqb = A.nqb := h1
      have z2 : (({ A with ham := H' } : AlgObj).pqe U').nqb = A.nqb := h2
      have y1 : (A.pqe U).ham = A.ham := h3
      have y2 : (({ A with ham := H' } : AlgObj).pqe U').ham = H' := h4
      simp only [z1, z2, y1, y2]
      refine ok_bind_congr (x := (Computer.init A.nqb).applyCircuit A.refprep) fun q hq => ?_
      obtain ⟨w, n⟩ := applyCircuit_wf (Computer.WF.init A.nqb) hq
      obtain ⟨v, q1, q2, d1, d2⟩ := directOp_same h w n
      rw [d1, d2, except_ok_bind, except_ok_bind]
      refine mapM_same fun i _ => ok_bind_congr (x := (Computer.init A.nqb).applyCircuit A.refprep) fun p hp => ok_bind_congr fun g _ => ok_bind_congr fun r hr => ?_
      obtain ⟨w0, n0⟩ := applyCircuit_wf (Computer.WF.init A.nqb) hp
      obtain ⟨w', n'⟩ := applyGate_wf w0 hr
      obtain ⟨v', r1, r2, f1, f2⟩ := directOp_same h w' (n'.trans n0)
      rw [f1, f2]
      rfl
  rw [key]

theorem startAnsatz_ham (N : SQOpPool.NextPerm) (o : DescSort) (fuel : ℕ) (A : AlgObj) (a : AlgArgs) (t : PoolArg) (H' : QubitOperator) :
    startAnsatz N o fuel { A with ham := H' } a t = (startAnsatz N o fuel A a t).map fun U => U.withHam H' := by
  unfold startAnsatz
  have e : ({ A with ham := H' } : AlgObj).fillPool N o fuel t = A.fillPool N o fuel t := rfl
  rw [e]
  cases A.fillPool N o fuel t with
  | error e => rfl
  | ok P =>
    rw [except_ok_bind, except_ok_bind]
    cases poolNm o P <;> rfl

/-- the minimiser of the energy sees only the energies and the gradients of the object it is given -/
def SeesEnergies (o : DescSort) (so : SortOracle) (X : UccRunExt) : Prop := ∀ (B : UccAlg) (H : QubitOperator),
  (∀ ts, (B.withHam H).energyFeval o so none ts = B.energyFeval o so none ts) → (∀ ts, (B.withHam H).measureGradient o so ts = B.measureGradient o so ts) → X.minimize (B.withHam H) = X.minimize B

/-- C124: a run of UCCN-VQE, with any pool and options -/
theorem C124_vqe (N : SQOpPool.NextPerm) (o : DescSort) (so : SortOracle) (fuel : ℕ) (X : UccRunExt) (hX : SeesEnergies o so X) (O : UccRunOpts) (cls : AlgClass) (S : QSystem) (a : AlgArgs)
    (A : AlgObj) (hA : ansatzInit cls S a = .ok A) (hs : ArgsSound S a A.nqb) (t : PoolArg) (hf : Option (List ℝ)) {H' : QubitOperator} (h : SameOp A.nqb A.ham H') :
    uccnvqeRun N o so none fuel X O { A with ham := H' } a t hf = (uccnvqeRun N o so none fuel X O A a t hf).map fun r => (r.1.withHam H', r.2) := by
  unfold uccnvqeRun
  rw [startAnsatz_ham]
  cases hU : startAnsatz N o fuel A a t with
  | error e => rfl
  | ok U =>
    have hP : ∃ P : SQOpPool, U = A.ucc a t P (List.range P.terms.length) (List.replicate P.terms.length 0) := by
      unfold startAnsatz at hU
      obtain ⟨P, -, k2⟩ := bindOk hU
      obtain ⟨⟨l, P'⟩, -, k4⟩ := bindOk k2
      exact ⟨P', (Except.ok.inj k4).symm⟩
    obtain ⟨P, rfl⟩ := hP
    have hR := (C96_ready cls S a A hA hs t P (List.range P.terms.length) (List.replicate P.terms.length 0)).1
    have hS : (A.ucc a t P (List.range P.terms.length) (List.replicate P.terms.length 0)).Starts := ⟨hR.wf, hR.size⟩
    have hn : (A.ucc a t P (List.range P.terms.length) (List.replicate P.terms.length 0)).nqb = A.nqb := rfl
    have hh : (A.ucc a t P (List.range P.terms.length) (List.replicate P.terms.length 0)).ham = A.ham := rfl
    generalize A.ucc a t P (List.range P.terms.length) (List.replicate P.terms.length 0) = U at hS hn hh
    have h' : SameOp U.nqb U.ham H' := by rw [hn, hh]; exact h
    have hen := C124_energy o so U hS h'
    have hgr := C124_gradient o so U hS h'
    have hsolve : vqeSolve o so none X O { A with ham := H' } hf (U.withHam H') = vqeSolve o so none X O A hf U := by
      unfold vqeSolve
      rw [orbE_same A h U (U.withHam H') hn hn hh rfl hf]
      have ht : (U.withHam H').tamps = U.tamps := rfl
      rw [ht, hen, hX U H' hen hgr]
      have henv : ∀ orbE, vqeJacobiEnv o so none X O { A with ham := H' } orbE (U.withHam H') = vqeJacobiEnv o so none X O A orbE U := by
        intro orbE
        unfold vqeJacobiEnv
        congr 1
        · exact funext hen
        · exact funext fun ts => hgr (some ts)
      simp only [henv]
    show (vqeSolve o so none X O { A with ham := H' } hf (U.withHam H') >>= _) = Except.map _ (vqeSolve o so none X O A hf U >>= _)
    rw [hsolve]
    cases vqeSolve o so none X O A hf U with
    | error e => rfl
    | ok xe =>
      obtain ⟨x, e⟩ := xe
      show (({ U with tamps := x } : UccAlg).buildUvqc o so none >>= _) = Except.map _ (({ U with tamps := x } : UccAlg).buildUvqc o so none >>= _)
      cases ({ U with tamps := x } : UccAlg).buildUvqc o so none <;> rfl

/-- C124: a run of UCCN-PQE, with any pool and options -/
theorem C124_pqe (N : SQOpPool.NextPerm) (o : DescSort) (so : SortOracle) (fuel : ℕ) (X : UccRunExt) (hX : SeesResiduals o so X) (O : UccRunOpts) (cls : AlgClass) (S : QSystem) (a : AlgArgs)
    (A : AlgObj) (hA : ansatzInit cls S a = .ok A) (hs : ArgsSound S a A.nqb) (t : PoolArg) (hf : Option (List ℝ)) {H' : QubitOperator} (h : SameOp A.nqb A.ham H') :
    uccnpqeRun N o so none fuel X O { A with ham := H' } a t hf = (uccnpqeRun N o so none fuel X O A a t hf).map fun r => ({ r.1 with ham := H' }, r.2) := by
  unfold uccnpqeRun
  by_cases hp : a.statePrep ≠ "occupation_list"
  · rw [if_pos hp, if_pos hp]; rfl
  rw [if_neg hp, if_neg hp, startAnsatz_ham]
  cases hU : startAnsatz N o fuel A a t with
  | error e => rfl
  | ok U =>
    have hP : ∃ P : SQOpPool, U = A.ucc a t P (List.range P.terms.length) (List.replicate P.terms.length 0) := by
      unfold startAnsatz at hU
      obtain ⟨P, -, k2⟩ := bindOk hU
      obtain ⟨⟨l, P'⟩, -, k4⟩ := bindOk k2
      exact ⟨P', (Except.ok.inj k4).symm⟩
    obtain ⟨P, rfl⟩ := hP
    have hR := (C96_ready cls S a A hA hs t P (List.range P.terms.length) (List.replicate P.terms.length 0)).1
    have hS : (A.ucc a t P (List.range P.terms.length) (List.replicate P.terms.length 0)).Starts := ⟨hR.wf, hR.size⟩
    have hn : (A.ucc a t P (List.range P.terms.length) (List.replicate P.terms.length 0)).nqb = A.nqb := rfl
    have hh : (A.ucc a t P (List.range P.terms.length) (List.replicate P.terms.length 0)).ham = A.ham := rfl
    generalize A.ucc a t P (List.range P.terms.length) (List.replicate P.terms.length 0) = U at hS hn hh
    have h' : SameOp U.nqb U.ham H' := by rw [hn, hh]; exact h
    have hen := C124_energy o so U hS h'
    have horb := orbE_same A h U (U.withHam H') hn hn hh rfl hf
    show ((A.pqe U).fillExcitedDets o >>= _) = Except.map _ ((A.pqe U).fillExcitedDets o >>= _)
    cases (A.pqe U).fillExcitedDets o with
    | error e => rfl
    | ok dets =>
      have hres : ∀ ts, ({ A.pqe U with ham := H' } : PqeAlg).residualVector o so dets ts = (A.pqe U).residualVector o so dets ts := C124_residual o so (A.pqe U) h' dets
      show (({ A with ham := H' } : AlgObj).orbE none (U.withHam H') hf >>= _) = Except.map _ (A.orbE none U hf >>= _)
      rw [horb]
      cases A.orbE none U hf with
      | error e => rfl
      | ok orbE =>
        have hsolve : pqeSolve o so none X O orbE { A.pqe U with ham := H' } dets = pqeSolve o so none X O orbE (A.pqe U) dets := by
          unfold pqeSolve
          have henv : pqeJacobiEnv o so none X O orbE { A.pqe U with ham := H' } dets = pqeJacobiEnv o so none X O orbE (A.pqe U) dets := by
            unfold pqeJacobiEnv
            congr 1
            · exact funext hen
            · exact funext fun ts => congrArg (Except.map fun r : List ℂ => r.map Complex.re) (hres ts)
          rw [henv, hX (A.pqe U) H' dets hres]
          have e1 : ∀ ts, ({ A.pqe U with ham := H' } : PqeAlg).energyFeval o so none ts = (A.pqe U).energyFeval o so none ts := hen
          simp only [e1]
        show (pqeSolve o so none X O orbE { A.pqe U with ham := H' } dets >>= _) = Except.map _ (pqeSolve o so none X O orbE (A.pqe U) dets >>= _)
        rw [hsolve]
        cases pqeSolve o so none X O orbE (A.pqe U) dets with
        | error e => rfl
        | ok xe =>
          obtain ⟨x, e⟩ := xe
          show (({ A.pqe U with tamps := x } : PqeAlg).buildUvqc o so none >>= _) = Except.map _ (({ A.pqe U with tamps := x } : PqeAlg).buildUvqc o so none >>= _)
          cases ({ A.pqe U with tamps := x } : PqeAlg).buildUvqc o so none <;> rfl

/-- C124: Trotterised evolutions do see how the Hamiltonian is written, but two ways differ by no more than their Trotter errors together -/
theorem C124_trotter (n : ℕ) {H H' : QubitOperator} (hop : H'.op = H.op) (factor : ℂ) (N order : ℤ) (ho : order ≤ 1) (hN : 1 ≤ N)
    (hH : ∀ t ∈ H, TrotterTerm t.2 ∧ t.2.Fits n) (hf : ∀ t ∈ H, (factor * t.1).re = 0) (hH' : ∀ t ∈ H', TrotterTerm t.2 ∧ t.2.Fits n) (hf' : ∀ t ∈ H', (factor * t.1).re = 0) :
    ∃ C ph C' ph', trotterize H factor N order = .ok (C, ph) ∧ trotterize H' factor N order = .ok (C', ph') ∧
      ∀ ψ, nrm n (ph • Circuit.op C ψ - ph' • Circuit.op C' ψ) ≤ (ncWeight factor H + ncWeight factor H') / N * nrm n ψ := by
  obtain ⟨C, ph, U, h1, h2, -, h4⟩ := C100_error n H factor N order ho hN hH hf
  obtain ⟨C', ph', U', h1', h2', -, h4'⟩ := C100_error n H' factor N order ho hN hH' hf'
  rw [hop] at h2'
  obtain rfl := h2.unique h2'
  refine ⟨C, ph, C', ph', h1, h1', fun ψ => ?_⟩
  have e : ph • Circuit.op C ψ - ph' • Circuit.op C' ψ = (ph • Circuit.op C ψ - U ψ) - (ph' • Circuit.op C' ψ - U ψ) := by abel
  rw [e]
  refine (nrm_sub_le n _ _).trans ((add_le_add (h4 ψ) (h4' ψ)).trans (le_of_eq ?_))
  ring

theorem trotter_xz : ∃ H H' : QubitOperator, H.Perm H' ∧ (∀ t ∈ H, t.1.im = 0 ∧ t.2.PauliString 1 ∧ TrotterTerm t.2) ∧
    ∀ ψ ψ', TrotterState H 1 (Real.pi / 4) (Pi.single 0 1) ψ → TrotterState H' 1 (Real.pi / 4) (Pi.single 0 1) ψ' → ψ 0 * (starRingEnd ℂ) (ψ 1) ≠ ψ' 0 * (starRingEnd ℂ) (ψ' 1) := by
  have eX : Circuit.op [gX 0] = opX 0 := by simp [Circuit.op]
  have eZ : Circuit.op [gZ 0] = opZ 0 := by simp [Circuit.op]
  set z : ℂ := -Complex.I * ((Real.pi / 4 : ℝ) : ℂ) * 1 / ((1 : ℤ) : ℂ) with hz
  have hz' : z = -(((Real.pi / 4 : ℝ) : ℂ) * Complex.I) := by rw [hz]; push_cast; ring
  have kX : ∀ U, IsExp (z • Circuit.op [gX 0]) U → U = Complex.cosh z • (1 : Op) + Complex.sinh z • opX 0 := fun U h => (by rw [eX] at h; exact h.unique (isExp_invol (opX_sq 0) z))
  have kZ : ∀ U, IsExp (z • Circuit.op [gZ 0]) U → U = Complex.cosh z • (1 : Op) + Complex.sinh z • opZ 0 := fun U h => (by rw [eZ] at h; exact h.unique (isExp_invol (opZ_sq 0) z))
  have cz : Complex.cosh z = ((Real.cos (Real.pi / 4) : ℝ) : ℂ) := by rw [hz', Complex.cosh_neg, Complex.cosh_mul_I, Complex.ofReal_cos]
  have sz : Complex.sinh z = -((Real.sin (Real.pi / 4) : ℝ) : ℂ) * Complex.I := by rw [hz', Complex.sinh_neg, Complex.sinh_mul_I, Complex.ofReal_sin]; ring
  have two : ∀ {A B : Circuit} {ψ : St}, TrotterState [(1, A), (1, B)] 1 (Real.pi / 4) (Pi.single 0 1) ψ →
      ∃ U V, IsExp (z • A.op) U ∧ IsExp (z • B.op) V ∧ ψ = V (U (Pi.single 0 1)) := by
    intro A B ψ h
    obtain ⟨Us, h1, rfl⟩ := h
    rw [List.forall₂_cons_left_iff] at h1
    obtain ⟨U, Us', hU, h2, rfl⟩ := h1
    rw [List.forall₂_cons_left_iff] at h2
    obtain ⟨V, Us'', hV, h3, rfl⟩ := h2
    cases h3
    exact ⟨U, V, hU, hV, by simp [applyInOrder, Module.End.mul_apply]⟩
  refine ⟨[(1, [gX 0]), (1, [gZ 0])], [(1, [gZ 0]), (1, [gX 0])], List.Perm.swap _ _ _, ?_, ?_⟩
  · have hX : Circuit.PauliString 1 [gX 0] := ⟨by simp [pauliGate_X], by simp, by intro g hg; simp at hg; subst hg; simp [gX]⟩
    have hZ : Circuit.PauliString 1 [gZ 0] := ⟨by simp [pauliGate_Z], by simp, by intro g hg; simp at hg; subst hg; simp [gZ]⟩
    have iX : Circuit.IPauliString [gX 0] := ⟨fun g hg => by rw [List.mem_singleton.1 hg]; exact ⟨.inr (.inl rfl), make_X 0 0⟩, by simp⟩
    have iZ : Circuit.IPauliString [gZ 0] := ⟨fun g hg => by rw [List.mem_singleton.1 hg]; exact ⟨.inr (.inr (.inr rfl)), make_Z 0 0⟩, by simp⟩
    intro t ht
    simp only [List.mem_cons, List.not_mem_nil, or_false] at ht
    rcases ht with rfl | rfl
    · exact ⟨by simp, hX, iX, .inr ⟨gX 0, by simp, by simp [gX]⟩⟩
    · exact ⟨by simp, hZ, iZ, .inr ⟨gZ 0, by simp, by simp [gZ]⟩⟩
  · intro ψ ψ' h h'
    obtain ⟨U, V, hU, hV, rfl⟩ := two h
    obtain ⟨V', U', hV', hU', rfl⟩ := two h'
    rw [kX U hU, kZ V hV, kX U' hU', kZ V' hV', cz, sz]
    have e0 : (Real.cos (Real.pi / 4)) = Real.sqrt 2 / 2 := Real.cos_pi_div_four
    have e1 : (Real.sin (Real.pi / 4)) = Real.sqrt 2 / 2 := Real.sin_pi_div_four
    rw [e0, e1]
    simp only [LinearMap.add_apply, LinearMap.smul_apply, Module.End.one_apply, opX_single, opZ_single, map_add, map_smul, Pi.add_apply, Pi.smul_apply, smul_eq_mul]
    simp [flipBit]
    have c2 : (starRingEnd ℂ) 2 = 2 := Complex.conj_ofNat 2
    rw [c2]
    intro hh
    have s2 : ((Real.sqrt 2 : ℝ) : ℂ) ^ 2 = 2 := by
      rw [← Complex.ofReal_pow, Real.sq_sqrt (by norm_num)]; norm_num
    have I2 : Complex.I ^ 2 = -1 := Complex.I_sq
    have h1 : (1 : ℂ) = Complex.I := by
      generalize ((Real.sqrt 2 : ℝ) : ℂ) = s at hh s2
      have s4 : s ^ 4 = 4 := by rw [show s ^ 4 = (s ^ 2) ^ 2 by ring, s2]; norm_num
      linear_combination 2 * hh + (Complex.I ^ 2 - Complex.I ^ 3) / 4 * s4 + (1 - Complex.I) * I2
    have := congrArg Complex.im h1
    norm_num at this

/-- C124: the two orders of `X + Z`, evolved for a time π/4 in one Trotter step, give different states: the coherences between the two basis states (the expectation values of `X` and `Y`) differ -/
theorem C124_trotter_refuted : ∃ H H' : QubitOperator, H.Perm H' ∧ (∀ t ∈ H, t.1.im = 0 ∧ t.2.PauliString 1) ∧ ∃ C ph C' ph',
    trotterize H (-Complex.I * (Real.pi / 4 : ℝ)) 1 1 = .ok (C, ph) ∧ trotterize H' (-Complex.I * (Real.pi / 4 : ℝ)) 1 1 = .ok (C', ph') ∧
      ∀ ψ ψ' : St, ψ = ph • Circuit.op C (Pi.single 0 1) → ψ' = ph' • Circuit.op C' (Pi.single 0 1) → ψ 0 * (starRingEnd ℂ) (ψ 1) ≠ ψ' 0 * (starRingEnd ℂ) (ψ' 1) := by
  obtain ⟨H, H', hp, hH, h⟩ := trotter_xz
  have hf : ∀ t ∈ H, ((-Complex.I * ((Real.pi / 4 : ℝ) : ℂ)) * t.1).re = 0 := fun t ht => by
    simp [Complex.mul_re, (hH t ht).1]
  obtain ⟨C, ph, Us, h1, h2, h3, -⟩ := C40_trotterize H _ 1 1 le_rfl (by omega) (fun t ht => (hH t ht).2.2) hf
  obtain ⟨C', ph', Us', h1', h2', h3', -⟩ := C40_trotterize H' _ 1 1 le_rfl (by omega) (fun t ht => (hH t (hp.mem_iff.2 ht)).2.2) (fun t ht => hf t (hp.mem_iff.2 ht))
  refine ⟨H, H', hp, fun t ht => ⟨(hH t ht).1, (hH t ht).2.1⟩, C, ph, C', ph', h1, h1', ?_⟩
  rintro ψ ψ' rfl rfl
  exact h _ _ ⟨Us, h2, by rw [← h3]; rfl⟩ ⟨Us', h2', by rw [← h3']; rfl⟩

/-- C124, a concrete case of the hypotheses of `C124_pqe`: the four-qubit system of C97 with its terms in the other order, a minimiser that returns its starting point, and two runs that end -/
theorem C124_example (N : SQOpPool.NextPerm) (o : DescSort) (so : SortOracle) : ∃ A, ansatzInit .uccnpqe fourQubits {} = .ok A ∧ ArgsSound fourQubits {} A.nqb ∧
    SameOp A.nqb A.ham A.ham.reverse ∧ A.ham.reverse ≠ A.ham ∧ ∃ fuel X, SeesResiduals o so X ∧ ∃ U dets E c,
        uccnpqeRun N o so none fuel X { optimizer := "BFGS", optMaxiter := 10, optThresh := 1e-6, diisMaxDim := 8 } A {} (.name "SD") (some [-1, 1]) = .ok (U, dets, E, c) ∧
        uccnpqeRun N o so none fuel X { optimizer := "BFGS", optMaxiter := 10, optThresh := 1e-6, diisMaxDim := 8 } { A with ham := A.ham.reverse } {} (.name "SD") (some [-1, 1]) =
          .ok ({ U with ham := A.ham.reverse }, dets, E, c) := by
  obtain ⟨A, hA, hs, hn4, hO, hne, hR, -, keys, hmem, -, hk, fuel, hstart, -⟩ := C112_example N o so
  have hsame : SameOp A.nqb A.ham A.ham.reverse := SameOp.perm (startOf_ready hA hs keys (A.startOf {} keys).tamps).ham (List.reverse_perm _).symm
  have hX : SeesResiduals o so ⟨fun B => .error .exception, fun B _ => .ok B.tamps, fun _ _ => []⟩ := fun _ _ _ _ => rfl
  obtain ⟨U, dets, E, c, e⟩ := C112_returns N o so fuel ⟨fun B => .error .exception, fun B _ => .ok B.tamps, fun _ _ => []⟩
    { optimizer := "BFGS", optMaxiter := 10, optThresh := 1e-6, diisMaxDim := 8 } _ _ _ A hA hs rfl rfl (by decide) (.name "SD") [-1, 1] keys hk hO hne (by omega) 3 hR hstart
    (by decide) fun B _ => ⟨_, rfl⟩
  have h := C124_pqe N o so fuel _ hX { optimizer := "BFGS", optMaxiter := 10, optThresh := 1e-6, diisMaxDim := 8 } _ _ _ A hA hs (.name "SD") (some [-1, 1]) hsame
  rw [e] at h
  have hham : A.ham = fourQubits.hamiltonian := by
    obtain ⟨A0, e0, -, -, h | ⟨v, ops, eigs, scales, h, -⟩⟩ := ansatz_base hA
    · rw [h.2.1]
      exact (C96_object _ _ _ A0 e0).2.2.2.2.1
    · cases h
  refine ⟨A, hA, hs, hsame, ?_, fuel, _, hX, U, dets, E, c, e, h⟩
  rw [hham]
  simp [fourQubits, gX, gZ]

end QF
