import Verif.Props.HamForm
import Verif.Props.Qite

/-!
C124 for QITE: a whole run, with or without the Lanczos procedure, sees only the operator that the Hamiltonian denotes.
-/
namespace QF

open SQOperator (DescSort)
open QubitOperator (SortOracle)

theorem map_ok_bind {α β γ : Type} (P : β → γ) {x : Except Exc α} {f g : α → Except Exc β} (h : ∀ a, x = .ok a → (f a).map P = (g a).map P) : (x >>= f).map P = (x >>= g).map P := by
  cases x with
  | error e => rfl
  | ok a => exact h a rfl

theorem map_rel_bind {α β γ δ : Type} (Q : α → δ) (P : β → γ) {x y : Except Exc α} (h : x.map Q = y.map Q) {f g : α → Except Exc β}
    (hfg : ∀ a b, x = .ok a → y = .ok b → Q a = Q b → (f a).map P = (g b).map P) : (x >>= f).map P = (y >>= g).map P := by
  cases x with
  | error e =>
    cases y with
    | error e' => cases h; rfl
    | ok b => cases h
  | ok a =>
    cases y with
    | error e' => cases h
    | ok b => exact hfg a b rfl rfl (Except.ok.inj h)

/-- the state of an evolution without the number of measurements and the gate counts of its computer -/
def QiteState.plain (st : QiteState) : QiteState := { st with qc := st.qc.plain, nMeas := 0 }

theorem applyOperator_plain {a b : Computer} (h : a.plain = b.plain) (T : QubitOperator) : (a.applyOperator T).map Computer.plain = (b.applyOperator T).map Computer.plain := by
  unfold Computer.applyOperator
  have hc : a.coeff = b.coeff := by
    have : a.plain.coeff = b.plain.coeff := by rw [h]
    exact this
  have hn : a.nbasis = b.nbasis := by
    have : a.plain.nbasis = b.plain.nbasis := by rw [h]
    exact this
  rw [hc, hn]
  generalize b.coeff = old
  generalize List.replicate b.nbasis (0 : ℂ) = r
  refine map_rel_bind (fun s : Computer × List ℂ => (s.1.plain, s.2)) Computer.plain ?_ ?_
  · clear hc hn
    induction T generalizing a b r with
    | nil => exact congrArg Except.ok (by simp only [h])
    | cons t T ih =>
      rw [List.foldlM_cons, List.foldlM_cons]
      refine map_rel_bind (fun s : Computer × List ℂ => (s.1.plain, s.2)) _ ?_ ?_
      · refine map_rel_bind Computer.plain _ (applyCircuit_plain h t.2) fun q q' _ _ hq => ?_
        have : (q.applyConstant t.1).coeff = (q'.applyConstant t.1).coeff := by
          have e : q.plain.coeff = q'.plain.coeff := by rw [hq]
          have e : q.coeff = q'.coeff := e
          simp only [Computer.applyConstant, e]
        dsimp only
        rw [this]
        refine map_ok_bind _ fun v _ => ?_
        refine congrArg Except.ok (Prod.ext ?_ rfl)
        obtain ⟨n1, n2, n3, n4, n5, n6⟩ := q
        obtain ⟨m1, m2, m3, m4, m5, m6⟩ := q'
        simp only [Computer.plain, Computer.mk.injEq, and_true] at hq
        obtain ⟨rfl, rfl, rfl, rfl⟩ := hq
        rfl
      · intro s s' _ _ e
        obtain ⟨s1, s2⟩ := s
        obtain ⟨s1', s2'⟩ := s'
        simp only [Prod.mk.injEq] at e
        obtain ⟨e1, rfl⟩ := e
        exact ih e1 s2
  · intro s s' _ _ e
    obtain ⟨s1, s2⟩ := s
    obtain ⟨s1', s2'⟩ := s'
    simp only [Prod.mk.injEq] at e
    obtain ⟨e1, rfl⟩ := e
    refine congrArg Except.ok ?_
    obtain ⟨n1, n2, n3, n4, n5, n6⟩ := s1
    obtain ⟨m1, m2, m3, m4, m5, m6⟩ := s1'
    simp only [Computer.plain, Computer.mk.injEq, and_true] at e1 ⊢
    obtain ⟨rfl, rfl, rfl, rfl⟩ := e1
    simp

theorem eq_bind {α β δ : Type} (Q : α → δ) {x y : Except Exc α} (h : x.map Q = y.map Q) {f g : α → Except Exc β}
    (hfg : ∀ a b, x = .ok a → y = .ok b → Q a = Q b → f a = g b) : (x >>= f) = (y >>= g) := by
  have := map_rel_bind Q id h (f := f) (g := g) fun a b ha hb hab => by rw [hfg a b ha hb hab]
  revert this
  cases (x >>= f) <;> cases (y >>= g) <;> intro this
  · cases this; rfl
  · cases this
  · cases this
  · exact congrArg Except.ok (Except.ok.inj this)

namespace QiteAlg

/-- QITE with another Hamiltonian -/
def withHam (A : QiteAlg) (H : QubitOperator) : QiteAlg := { A with ham := H }

theorem plain_coeff {a b : Computer} (h : a.plain = b.plain) : a.coeff = b.coeff := by
  have : a.plain.coeff = b.plain.coeff := by rw [h]
  exact this

theorem reset_same {A : QiteAlg} {H' : QubitOperator} (h : SameOp A.nqb A.ham H') {v : List ℂ} (hv : v.length = 2 ^ A.nqb) :
    (((Computer.init A.nqb).setCoeffVec v).applyOperator H').map Computer.plain = (((Computer.init A.nqb).setCoeffVec v).applyOperator A.ham).map Computer.plain :=
  applyOperator_same h (reset_wf hv) rfl

theorem buildB_same {A : QiteAlg} {H' : QubitOperator} (h : SameOp A.nqb A.ham H') (sig : QubitOpPool) {q q' : Computer} (hq : q.WF) (hn : q.nqubit = A.nqb) (hp : q'.plain = q.plain) (E : ℝ) :
    (A.withHam H').buildB sig q' E = A.buildB sig q E := by
  have hv : q.coeff.length = 2 ^ A.nqb := by rw [hq.len, hn]
  unfold buildB
  rw [plain_coeff hp]
  refine plain_bind (reset_same h hv) fun a b _ _ hab => ?_
  have e : a.coeff = b.coeff := plain_coeff hab
  have hs : (a.setCoeffVec a.coeff).plain = (b.setCoeffVec b.coeff).plain := by
    obtain ⟨n1, n2, n3, n4, n5, n6⟩ := a
    obtain ⟨m1, m2, m3, m4, m5, m6⟩ := b
    simp only [Computer.plain, Computer.mk.injEq, and_true] at hab
    obtain ⟨rfl, rfl, rfl, rfl⟩ := hab
    rfl
  have k : ∀ t : ℂ × QubitOperator, ((a.setCoeffVec a.coeff).applyOperator t.2 >>= fun p => vdot q.coeff p.coeff >>= fun v => pure (-Complex.I / ((Real.sqrt (1 - 2 * A.db * E) : ℝ) : ℂ) * t.1 * v).re) =
      ((b.setCoeffVec b.coeff).applyOperator t.2 >>= fun p => vdot q.coeff p.coeff >>= fun v => pure (-Complex.I / ((Real.sqrt (1 - 2 * A.db * E) : ℝ) : ℂ) * t.1 * v).re : Except Exc ℝ) := fun t =>
    eq_bind Computer.plain (applyOperator_plain hs t.2) fun x y _ _ hxy => by rw [plain_coeff hxy]
  have k' := funext k
  dsimp only [withHam]
  rw [k']
  rfl

theorem directOp_pair {n : ℕ} {H H' : QubitOperator} (h : SameOp n H H') {a b : Computer} (ha : a.WF) (na : a.nqubit = n) (hb : b.WF) (nb : b.nqubit = n) (hab : a.plain = b.plain) :
    ∃ v q1 q2, a.directOpExpVal none H' = .ok (v, q1) ∧ b.directOpExpVal none H = .ok (v, q2) ∧ q1.plain = q2.plain ∧ (q1.WF ∧ q1.nqubit = n) ∧ q2.WF ∧ q2.nqubit = n := by
  obtain ⟨q1, e1, s1⟩ := C29_direct_op a H' ha (by rw [na]; exact h.fits')
  obtain ⟨q2, e2, s2⟩ := C29_direct_op b H hb (by rw [nb]; exact h.fits)
  have hp : a.psi = b.psi := congrArg vec (plain_coeff hab)
  refine ⟨_, q1, q2, e1, by rw [e2, na, nb, hp, h.op], plain_ext s1.wf s2.wf ?_ ?_, ⟨s1.wf, s1.nqubit.trans na⟩, s2.wf, s2.nqubit.trans nb⟩
  · rw [s1.nqubit, s2.nqubit, na, nb]
  · rw [s1.psi, s2.psi, hp]

/-- the computer of the evolution is a valid one of `n` qubits -/
def Fine (n : ℕ) (st : QiteState) : Prop := st.qc.WF ∧ st.qc.nqubit = n

theorem gram_same (A : QiteAlg) (H' : QubitOperator) {q q' : Computer} (hp : q'.plain = q.plain) (ops : List QubitOperator) : (A.withHam H').gram q' ops = A.gram q ops := by
  unfold gram gramStep
  rw [plain_coeff hp]
  rfl

theorem step_ham {A : QiteAlg} {H' : QubitOperator} (h : SameOp A.nqb A.ham H') (ls : LstsqOracle) (sig : QubitOpPool) {st st' : QiteState} (hq : Fine A.nqb st) (hq' : Fine A.nqb st')
    (hp : st'.plain = st.plain) : ((A.withHam H').step ls none sig st').map QiteState.plain = (A.step ls none sig st).map QiteState.plain := by
  obtain ⟨hq, hn⟩ := hq
  obtain ⟨hq', hn'⟩ := hq'
  obtain ⟨u, q, ek, ph, np, nc, nm, lv, hl⟩ := st
  obtain ⟨u', q', ek', ph', np', nc', nm', lv', hl'⟩ := st'
  simp only [QiteState.plain, QiteState.mk.injEq] at hp
  obtain ⟨rfl, hp, rfl, rfl, rfl, rfl, -, rfl, rfl⟩ := hp
  unfold step
  refine map_ok_bind _ fun E _ => ?_
  dsimp only
  rw [buildB_same h sig hq hn hp]
  refine map_ok_bind _ fun b _ => map_ok_bind _ fun sel _ => map_ok_bind _ fun ops _ => ?_
  rw [gram_same A H' hp]
  refine map_ok_bind _ fun S _ => map_ok_bind _ fun T _ => map_ok_bind _ fun Cp _ => ?_
  obtain ⟨C, ph⟩ := Cp
  refine map_rel_bind Computer.plain _ (applyCircuit_plain hp C) fun a b ha hb hab => ?_
  obtain ⟨wa, na⟩ := applyCircuit_wf hq' ha
  obtain ⟨wb, nb⟩ := applyCircuit_wf hq hb
  obtain ⟨v, q1, q2, d1, d2, d3, -⟩ := directOp_pair h wa (na.trans hn') wb (nb.trans hn) hab
  show Except.map _ (a.directOpExpVal none H' >>= _) = Except.map _ (b.directOpExpVal none A.ham >>= _)
  rw [d1, d2]
  refine congrArg Except.ok ?_
  simp only [QiteState.plain, d3]

theorem step_fine {A : QiteAlg} (hH : ∀ t ∈ A.ham, t.2.Fits A.nqb ∧ ∀ g ∈ t.2, ExactGate g) (ls : LstsqOracle) (sig : QubitOpPool) {st st1 : QiteState} (hq : Fine A.nqb st)
    (h : A.step ls none sig st = .ok st1) : Fine A.nqb st1 := by
  unfold step at h
  obtain ⟨E, -, h⟩ := bindOk h
  obtain ⟨b, -, h⟩ := bindOk h
  obtain ⟨sel, -, h⟩ := bindOk h
  obtain ⟨ops, -, h⟩ := bindOk h
  obtain ⟨S, -, h⟩ := bindOk h
  obtain ⟨T, -, h⟩ := bindOk h
  obtain ⟨⟨C, ph⟩, -, h⟩ := bindOk h
  obtain ⟨a, ha, h⟩ := bindOk h
  obtain ⟨⟨v, q1⟩, hd, h⟩ := bindOk h
  obtain ⟨w, n⟩ := applyCircuit_wf hq.1 ha
  obtain ⟨q2, e2, s2⟩ := C29_direct_op a A.ham w (by rw [n, hq.2]; exact hH)
  rw [e2] at hd
  cases hd
  cases h
  exact ⟨s2.wf, s2.nqubit.trans (n.trans hq.2)⟩

theorem keep_ham {A : QiteAlg} {H' : QubitOperator} (h : SameOp A.nqb A.ham H') {st st' : QiteState} (hq : Fine A.nqb st) (hp : st'.plain = st.plain) :
    ((A.withHam H').keep st').map QiteState.plain = (A.keep st).map QiteState.plain := by
  obtain ⟨hq, hn⟩ := hq
  obtain ⟨u, q, ek, ph, np, nc, nm, lv, hl⟩ := st
  obtain ⟨u', q', ek', ph', np', nc', nm', lv', hl'⟩ := st'
  simp only [QiteState.plain, QiteState.mk.injEq] at hp
  obtain ⟨rfl, hp, rfl, rfl, rfl, rfl, -, rfl, rfl⟩ := hp
  unfold keep
  dsimp only
  rw [plain_coeff hp]
  refine map_rel_bind Computer.plain _ (reset_same h (by rw [hq.len, hn])) fun a b _ _ hab => congrArg Except.ok ?_
  simp only [QiteState.plain, plain_coeff hab, hp]

theorem keep_fine {A : QiteAlg} {st st1 : QiteState} (hq : Fine A.nqb st) (h : A.keep st = .ok st1) : Fine A.nqb st1 := by
  unfold keep at h
  obtain ⟨p, -, h⟩ := bindOk h
  cases h
  exact hq

theorem loopStep_ham {A : QiteAlg} {H' : QubitOperator} (h : SameOp A.nqb A.ham H') (ls : LstsqOracle) (sig : QubitOpPool) (kb : ℕ) {st st' : QiteState} (hq : Fine A.nqb st) (hq' : Fine A.nqb st')
    (hp : st'.plain = st.plain) : ((A.withHam H').loopStep ls none sig st' kb).map QiteState.plain = (A.loopStep ls none sig st kb).map QiteState.plain := by
  unfold loopStep
  refine map_rel_bind QiteState.plain _ (step_ham h ls sig hq hq' hp) fun a b ha hb hab => ?_
  have fb := step_fine h.fits ls sig hq hb
  show Except.map _ (if A.doLanczos then (if A.lanczosGap = 0 then _ else if (kb : ℤ) % A.lanczosGap = 0 then (A.withHam H').keep a else pure a) else pure a) = _
  split_ifs
  · rfl
  · exact keep_ham h fb hab
  · exact congrArg Except.ok hab
  · exact congrArg Except.ok hab

theorem loopStep_fine {A : QiteAlg} (hH : ∀ t ∈ A.ham, t.2.Fits A.nqb ∧ ∀ g ∈ t.2, ExactGate g) (ls : LstsqOracle) (sig : QubitOpPool) (kb : ℕ) {st st1 : QiteState} (hq : Fine A.nqb st)
    (h : A.loopStep ls none sig st kb = .ok st1) : Fine A.nqb st1 := by
  unfold loopStep at h
  obtain ⟨s, hs, h⟩ := bindOk h
  have f := step_fine hH ls sig hq hs
  split_ifs at h
  · exact keep_fine f h
  · cases h; exact f
  · cases h; exact f

theorem loop_ham {A : QiteAlg} {H' : QubitOperator} (h : SameOp A.nqb A.ham H') (ls : LstsqOracle) (sig : QubitOpPool) : ∀ (ks : List ℕ) {st st' : QiteState}, Fine A.nqb st → Fine A.nqb st' →
    st'.plain = st.plain → (ks.foldlM ((A.withHam H').loopStep ls none sig) st').map QiteState.plain = (ks.foldlM (A.loopStep ls none sig) st).map QiteState.plain
  | [], _, _, _, _, hp => congrArg Except.ok hp
  | k :: ks, st, st', hq, hq', hp => by
    rw [List.foldlM_cons, List.foldlM_cons]
    exact map_rel_bind QiteState.plain _ (loopStep_ham h ls sig k hq hq' hp) fun a b ha hb hab =>
      loop_ham h ls sig ks (loopStep_fine h.fits ls sig k hq hb) (loopStep_fine (A := A.withHam H') h.fits' ls sig k hq' ha) hab

theorem evolve_ham {A : QiteAlg} {H' : QubitOperator} (h : SameOp A.nqb A.ham H') (ls : LstsqOracle) (sig : QubitOpPool) (E0 : ℝ) (nb : ℤ) :
    ((A.withHam H').evolve ls none sig E0 nb).map QiteState.plain = (A.evolve ls none sig E0 nb).map QiteState.plain := by
  unfold evolve
  refine map_ok_bind _ fun q hq => ?_
  obtain ⟨w, n⟩ := applyCircuit_wf (Computer.WF.init A.nqb) hq
  have f : ∀ st : QiteState, st.qc = q → Fine A.nqb st := fun st e => by unfold Fine; rw [e]; exact ⟨w, n⟩
  by_cases hl : A.doLanczos = true
  · have hl' : (A.withHam H').doLanczos = true := hl
    simp only [if_pos hl, if_pos hl']
    exact map_rel_bind QiteState.plain _ (keep_ham h (f _ rfl) rfl) fun a b ha hb hab =>
      loop_ham h ls sig _ (keep_fine (f _ rfl) hb) (keep_fine (A := A.withHam H') (f _ rfl) ha) hab
  · have hl' : ¬(A.withHam H').doLanczos = true := hl
    simp only [if_neg hl, if_neg hl']
    exact map_ok_bind _ fun a ha => by cases ha; exact loop_ham h ls sig _ (f _ rfl) (f _ rfl) rfl

/-- C124: a run of QITE, with any pool, options and the Lanczos procedure: the same exception, or the same circuit, state, energies, phase, numbers of parameters and CNOTs, pool and Lanczos matrices
and energy; only the counts of gates and of measured terms can differ -/
theorem C124_qite (N : SQOpPool.NextPerm) (o : DescSort) (so : SortOracle) (fuel : ℕ) (ls : LstsqOracle) (eig : EigOracle) (A : QiteAlg) {H' : QubitOperator} (h : SameOp A.nqb A.ham H') :
    ((A.withHam H').run N o so fuel ls eig none).map (fun r => (r.1.plain, r.2)) = (A.run N o so fuel ls eig none).map (fun r => (r.1.plain, r.2)) := by
  unfold run
  refine map_ok_bind _ fun nb _ => map_ok_bind _ fun q hq => ?_
  obtain ⟨w, n⟩ := applyCircuit_wf (Computer.WF.init A.nqb) hq
  obtain ⟨v, q1, q2, d1, d2, -⟩ := directOp_pair h w n w n rfl
  show Except.map _ (q.directOpExpVal none H' >>= _) = Except.map _ (q.directOpExpVal none A.ham >>= _)
  rw [d1, d2]
  show Except.map _ (buildExpansionPool N o so fuel A >>= _) = Except.map _ (buildExpansionPool N o so fuel A >>= _)
  refine map_ok_bind _ fun sig _ => ?_
  refine map_rel_bind QiteState.plain _ (evolve_ham h ls sig v.re nb) fun a b _ _ hab => ?_
  obtain ⟨u, q, ek, ph, np, nc, nm, lv, hl⟩ := a
  obtain ⟨u', q', ek', ph', np', nc', nm', lv', hl'⟩ := b
  simp only [QiteState.plain, QiteState.mk.injEq] at hab
  obtain ⟨rfl, hp, rfl, rfl, rfl, rfl, -, rfl, rfl⟩ := hab
  refine map_ok_bind _ fun E _ => ?_
  by_cases hL : A.doLanczos = true
  · have hL' : (A.withHam H').doLanczos = true := hL
    simp only [if_pos hL, if_pos hL']
    refine map_ok_bind _ fun r _ => map_ok_bind _ fun l _ => congrArg Except.ok ?_
    simp only [QiteState.plain, hp]
  · have hL' : ¬(A.withHam H').doLanczos = true := hL
    simp only [if_neg hL, if_neg hL']
    refine map_ok_bind _ fun l _ => congrArg Except.ok ?_
    simp only [QiteState.plain, hp]

/-- C124, a concrete case of the hypothesis of `C124_qite`: four qubits, a Hamiltonian with the letters of one string exchanged and its terms in the other order -/
theorem C124_qite_example : ∃ A : QiteAlg, ∃ H' : QubitOperator, A.nqb = 4 ∧ SameOp A.nqb A.ham H' ∧ A.ham = [(1, [gZ 3]), (1, [gX 0, gX 2])] ∧ H' = [(1, [gX 2, gX 0]), (1, [gZ 3])] := by
  have hZ : Circuit.PauliString 4 [gZ 3] := ⟨by simp [pauliGate_Z], by simp, by intro g hg; simp at hg; subst hg; simp [gZ]⟩
  have hX : Circuit.PauliString 4 [gX 0, gX 2] := ⟨by simp [pauliGate_X], by simp [gX], by intro g hg; simp at hg; rcases hg with rfl | rfl <;> simp [gX]⟩
  have hp : ∀ t ∈ ([(1, [gZ 3]), (1, [gX 0, gX 2])] : QubitOperator), t.2.PauliString 4 := by
    intro t ht
    simp only [List.mem_cons, List.not_mem_nil, or_false] at ht
    rcases ht with rfl | rfl
    · exact hZ
    · exact hX
  have h1 : SameOp 4 [(1, [gZ 3]), (1, [gX 0, gX 2])] [(1, [gZ 3]), (1, [gX 2, gX 0])] := SameOp.letters hp (.cons ⟨rfl, .refl _⟩ (.cons ⟨rfl, .swap _ _ _⟩ .nil))
  exact ⟨{ nqb := 4, ham := [(1, [gZ 3]), (1, [gX 0, gX 2])] }, _, rfl, h1.trans (SameOp.perm h1.fits' (.swap _ _ _)), rfl, rfl⟩

end QiteAlg
end QF
