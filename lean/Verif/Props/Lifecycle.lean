import Verif.Props.Sparse
import Verif.Lemmas.Measure

/-! C60 Computer lifecycle: over every history of operations. -/
namespace QF

theorem wr_length {l l' : List ℂ} {I : ℕ} {v : ℂ} (h : wr l I v = .ok l') : l'.length = l.length := by
  unfold wr at h
  split_ifs at h
  cases h; simp

/-- a loop each of whose iterations keeps the length keeps the length -/
theorem foldlM_length {α : Type} (f : List ℂ → α → Except Exc (List ℂ)) (hf : ∀ l a l', f l a = .ok l' → l'.length = l.length)
    (as : List α) (l l' : List ℂ) (h : as.foldlM f l = .ok l') : l'.length = l.length :=
  foldlM_inv (fun x => x.length = l.length) f (fun b a b' hb e => (hf b a b' e).trans hb) as l l' rfl h

theorem mapM_length {α β : Type} (f : α → Except Exc β) : ∀ (l : List α) (r : List β), l.mapM f = .ok r → r.length = l.length := by
  intro l
  induction l with
  | nil => intro r h; cases h; rfl
  | cons a l ih =>
    intro r h
    rw [List.mapM_cons] at h
    rcases hf : f a with e | b
    · rw [hf] at h; cases h
    · rw [hf] at h
      rcases hm : l.mapM f with e | bs
      · rw [hm] at h; cases h
      · rw [hm] at h; cases h
        simp [ih bs hm]

theorem bind_ok {α β : Type} {x : Except Exc α} {f : α → Except Exc β} {b : β} (h : (x >>= f) = .ok b) : ∃ a, x = .ok a ∧ f a = .ok b := by
  rcases x with e | a
  · cases h
  · exact ⟨a, rfl, h⟩

theorem pairKernel_length {a b c d : ℂ} {ps l l'} (h : pairKernel a b c d ps l = .ok l') : l'.length = l.length := by
  refine foldlM_length _ ?_ ps l l' h
  intro l p l' h
  obtain ⟨x0, _, h⟩ := bind_ok h
  obtain ⟨x1, _, h⟩ := bind_ok h
  obtain ⟨l1, h1, h⟩ := bind_ok h
  rw [wr_length h, wr_length h1]

theorem scaleKernel_length {a : ℂ} {is l l'} (h : scaleKernel a is l = .ok l') : l'.length = l.length := by
  refine foldlM_length _ ?_ is l l' h
  intro l p l' h
  obtain ⟨x0, _, h⟩ := bind_ok h
  exact wr_length h

theorem swapKernel_length {ps l l'} (h : swapKernel ps l = .ok l') : l'.length = l.length := by
  refine foldlM_length _ ?_ ps l l' h
  intro l p l' h
  obtain ⟨x0, _, h⟩ := bind_ok h
  obtain ⟨x1, _, h⟩ := bind_ok h
  obtain ⟨l1, h1, h⟩ := bind_ok h
  rw [wr_length h, wr_length h1]

theorem antiKernel_length {b c : ℂ} {ps l l'} (h : antiKernel b c ps l = .ok l') : l'.length = l.length := by
  refine foldlM_length _ ?_ ps l l' h
  intro l p l' h
  obtain ⟨x0, _, h⟩ := bind_ok h
  obtain ⟨x1, _, h⟩ := bind_ok h
  obtain ⟨l1, h1, h⟩ := bind_ok h
  rw [wr_length h, wr_length h1]

theorem accum_length {basis cond dest op coeff l l'} (h : accum basis cond dest op coeff l = .ok l') : l'.length = l.length := by
  refine foldlM_length _ ?_ basis l l' h
  intro l J l' h
  split_ifs at h
  · obtain ⟨x0, _, h⟩ := bind_ok h
    obtain ⟨x1, _, h⟩ := bind_ok h
    exact wr_length h
  · cases h; rfl

theorem accum2_length {q : Computer} {g : Gate} {l'} (h : accum2 q g = .ok l') : l'.length = q.newCoeff.length := by
  refine foldlM_length _ ?_ _ _ l' h
  intro l i l' h
  refine foldlM_length _ ?_ _ _ l' h
  intro l j l' h
  dsimp only at h
  split_ifs at h
  · exact accum_length h
  · cases h; rfl

theorem scale2_length {p q : Prop} [Decidable p] [Decidable q] {a b : ℂ} {is js : List ℕ} {l l' : List ℂ}
    (h : (do
      let l ← (if p then scaleKernel a is l else pure l)
      if q then scaleKernel b js l else pure l : Except Exc (List ℂ)) = .ok l') : l'.length = l.length := by
  obtain ⟨l1, h1, h2⟩ := bind_ok h
  have e1 : l1.length = l.length := by
    split_ifs at h1
    · exact scaleKernel_length h1
    · cases h1; rfl
  rw [← e1]
  split_ifs at h2
  · exact scaleKernel_length h2
  · cases h2; rfl

/-- what a gate application may change -/
structure GateStep (q q' : Computer) (one two : ℕ) : Prop where
  nqubit : q'.nqubit = q.nqubit
  nbasis : q'.nbasis = q.nbasis
  len : q'.coeff.length = q.coeff.length
  new : q'.newCoeff = List.replicate q.newCoeff.length 0
  one : q'.noneOps = q.noneOps + one
  two : q'.ntwoOps = q.ntwoOps + two

theorem apply1_step {q q' : Computer} {g : Gate} (hq : q.WF) (h : q.apply1 g = .ok q') : GateStep q q' 1 0 := by
  classical
  unfold Computer.apply1 at h
  obtain ⟨l, h1, h⟩ := bind_ok h
  cases h
  refine ⟨rfl, rfl, ?_, by simp [hq.new], rfl, rfl⟩
  show l.length = q.coeff.length
  split_ifs at h1
  · exact pairKernel_length h1
  all_goals first
    | exact swapKernel_length h1
    | exact antiKernel_length h1
    | exact scaleKernel_length h1
    | (obtain ⟨l1, g1, g2⟩ := bind_ok h1
       rw [scaleKernel_length g2, scaleKernel_length g1])
    | (obtain ⟨l1, g1, g2⟩ := bind_ok h1
       cases g1
       exact scaleKernel_length g2)
    | (obtain ⟨l1, g1, g2⟩ := bind_ok h1
       cases g2
       exact scaleKernel_length g1)
    | (cases h1; rfl)

theorem apply2A_length {nb t c : ℕ} {a b d e : ℂ} {l l' : List ℂ} (h : apply2A nb t c a b d e l = .ok l') : l'.length = l.length := by
  classical
  unfold apply2A at h
  by_cases h1 : ‖a‖ + ‖e‖ > thr ∧ ‖b‖ + ‖d‖ > thr
  · simp only [h1, and_self, if_true] at h; exact pairKernel_length h
  · simp only [h1, if_false] at h
    by_cases h2 : ‖a‖ + ‖e‖ > thr
    · simp only [h2, if_true] at h
      exact scale2_length h
    · simp only [h2, if_false] at h
      by_cases h3 : b = d
      · rw [if_pos h3] at h; exact swapKernel_length h
      · rw [if_neg h3] at h; exact antiKernel_length h

theorem apply2B_length {nb t c : ℕ} {a b d e : ℂ} {l l' : List ℂ} (h : apply2B nb t c a b d e l = .ok l') : l'.length = l.length := by
  classical
  unfold apply2B at h
  by_cases h1 : ‖a‖ + ‖e‖ > thr ∧ ‖b‖ + ‖d‖ > thr
  · simp only [h1, and_self, if_true] at h; exact pairKernel_length h
  · simp only [h1, if_false] at h
    by_cases h2 : ‖a‖ + ‖e‖ > thr
    · simp only [h2, if_true] at h
      exact scale2_length h
    · simp only [h2, if_false] at h
      by_cases h3 : b = d
      · rw [if_pos h3] at h; exact swapKernel_length h
      · rw [if_neg h3] at h; exact antiKernel_length h

theorem apply2_step {q q' : Computer} {g : Gate} (hq : q.WF) (hg : g.target ≠ g.control) (h : q.apply2 g = .ok q') : GateStep q q' 0 1 := by
  classical
  unfold Computer.apply2 at h
  dsimp only at h
  by_cases h1 : ‖g.mat 0 1‖ + ‖g.mat 1 0‖ < thr ∧ g.mat 0 0 = 1 ∧ g.mat 1 1 = 1
  · rw [if_pos h1] at h
    obtain ⟨q1, g1, g2⟩ := bind_ok h
    by_cases h2 : g.target < g.control
    · rw [if_pos h2] at g1
      rw [if_neg (by omega)] at g2
      cases g2
      obtain ⟨l, k1, k2⟩ := bind_ok g1
      cases k2
      exact ⟨rfl, rfl, apply2A_length k1, by simp [hq.new], rfl, rfl⟩
    · rw [if_neg h2] at g1
      cases g1
      rw [if_pos (by omega)] at g2
      obtain ⟨l, k1, k2⟩ := bind_ok g2
      cases k2
      exact ⟨rfl, rfl, apply2B_length k1, by simp [hq.new], rfl, rfl⟩
  · rw [if_neg h1] at h
    obtain ⟨nw, k1, k2⟩ := bind_ok h
    cases k2
    have hl := accum2_length k1
    refine ⟨rfl, rfl, ?_, ?_, rfl, rfl⟩
    · show nw.length = _
      rw [hl, hq.new, hq.len]; simp
    · show nw.map _ = _
      rw [List.map_const', hl]

theorem applyGate_step {q q' : Computer} {g : Gate} (hq : q.WF) (h : q.applyGate g = .ok q') :
    GateStep q q' (if g.nqubits = 1 then 1 else 0) (if g.nqubits = 2 then 1 else 0) := by
  unfold Computer.applyGate at h
  by_cases hg : g.target = g.control
  · have hn : g.nqubits = 1 := by unfold Gate.nqubits; rw [if_pos hg]
    rw [hn] at h ⊢
    simp only [if_true] at h ⊢
    obtain ⟨q1, g1, g2⟩ := bind_ok h
    rw [if_neg (by decide)] at g2; cases g2
    exact apply1_step hq g1
  · have hn : g.nqubits = 2 := by unfold Gate.nqubits; rw [if_neg hg]
    rw [hn] at h ⊢
    simp only [if_true] at h ⊢
    obtain ⟨q1, g1, g2⟩ := bind_ok h
    rw [if_neg (by decide)] at g1; cases g1
    exact apply2_step hq hg g2

theorem applyGateSafe_step {q q' : Computer} {g : Gate} (hq : q.WF) (h : q.applyGateSafe g = .ok q') :
    GateStep q q' (if g.nqubits = 1 then 1 else 0) (if g.nqubits = 2 then 1 else 0) := by
  classical
  unfold Computer.applyGateSafe at h
  by_cases hg : g.target = g.control
  · have hn : g.nqubits = 1 := by unfold Gate.nqubits; rw [if_pos hg]
    rw [hn] at h ⊢
    simp only [if_true] at h ⊢
    obtain ⟨q1, g1, g2⟩ := bind_ok h
    rw [if_neg (by decide)] at g2; cases g2
    unfold Computer.apply1Safe at g1
    obtain ⟨nw, k1, k2⟩ := bind_ok g1
    cases k2
    have hl : nw.length = q.newCoeff.length := by
      refine foldlM_length _ ?_ _ _ nw k1
      intro l i l' h
      refine foldlM_length _ ?_ _ _ l' h
      intro l j l' h
      dsimp only at h
      split_ifs at h
      · exact accum_length h
      · cases h; rfl
    refine ⟨rfl, rfl, ?_, ?_, rfl, rfl⟩
    · show nw.length = _
      rw [hl, hq.new, hq.len]; simp
    · show nw.map _ = _
      rw [List.map_const', hl]
  · have hn : g.nqubits = 2 := by unfold Gate.nqubits; rw [if_neg hg]
    rw [hn] at h ⊢
    simp only [if_true] at h ⊢
    obtain ⟨q1, g1, g2⟩ := bind_ok h
    rw [if_neg (by decide)] at g1; cases g1
    obtain ⟨q2, f1, f2⟩ := bind_ok g2
    cases f2
    unfold Computer.apply2Safe at f1
    obtain ⟨nw, k1, k2⟩ := bind_ok f1
    cases k2
    have hl := accum2_length k1
    refine ⟨rfl, rfl, ?_, ?_, rfl, rfl⟩
    · show nw.length = _
      rw [hl, hq.new, hq.len]; simp
    · show nw.map _ = _
      rw [List.map_const', hl]

theorem GateStep.wf {q q' : Computer} {a b : ℕ} (hq : q.WF) (h : GateStep q q' a b) : q'.WF :=
  ⟨by rw [h.nbasis, h.nqubit, hq.nbasis], by rw [h.len, h.nqubit, hq.len], by rw [h.new, h.nqubit, hq.new]; simp⟩

theorem applyAll_step (f : Computer → Gate → Except Exc Computer)
    (hf : ∀ q q' g, q.WF → f q g = .ok q' → GateStep q q' (if g.nqubits = 1 then 1 else 0) (if g.nqubits = 2 then 1 else 0)) :
    ∀ (c : Circuit) (q q' : Computer), q.WF → c.foldlM f q = .ok q' →
      GateStep q q' (c.countP fun g => g.nqubits = 1) (c.countP fun g => g.nqubits = 2) := by
  intro c
  induction c with
  | nil => intro q q' hq h; cases h; exact ⟨rfl, rfl, rfl, by rw [hq.new]; simp, rfl, rfl⟩
  | cons g c ih =>
    intro q q' hq h
    rw [List.foldlM_cons] at h
    obtain ⟨q1, h1, h2⟩ := bind_ok h
    have s1 := hf q q1 g hq h1
    have s2 := ih q1 q' (s1.wf hq) h2
    refine ⟨s2.nqubit.trans s1.nqubit, s2.nbasis.trans s1.nbasis, s2.len.trans s1.len, ?_, ?_, ?_⟩
    · rw [s2.new, s1.new]; simp
    · rw [s2.one, s1.one, List.countP_cons]; simp; omega
    · rw [s2.two, s1.two, List.countP_cons]; simp; omega

/-- C60: the counters count exactly the one- and two-qubit gates applied, for every circuit that runs. -/
theorem C60_counters (q q' : Computer) (c : Circuit) (hq : q.WF) (h : q.applyCircuit c = .ok q') :
    q'.noneOps = q.noneOps + (c.countP fun g => g.nqubits = 1) ∧ q'.ntwoOps = q.ntwoOps + (c.countP fun g => g.nqubits = 2) := by
  have := applyAll_step _ (fun _ _ _ hq h => applyGate_step hq h) c q q' hq h
  exact ⟨this.one, this.two⟩

theorem C60_counters_safe (q q' : Computer) (c : Circuit) (hq : q.WF) (h : q.applyCircuitSafe c = .ok q') :
    q'.noneOps = q.noneOps + (c.countP fun g => g.nqubits = 1) ∧ q'.ntwoOps = q.ntwoOps + (c.countP fun g => g.nqubits = 2) := by
  have := applyAll_step _ (fun _ _ _ hq h => applyGateSafe_step hq h) c q q' hq h
  exact ⟨this.one, this.two⟩

/-! ### states set directly -/

/-- C60: a new computer holds `|0…0⟩`. -/
theorem C60_init (n : ℕ) : (Computer.init n).WF ∧ (Computer.init n).psi = Pi.single 0 1 := by
  refine ⟨⟨rfl, by simp [Computer.init], rfl⟩, ?_⟩
  funext I
  have h0 : 0 < 2 ^ n := by positivity
  by_cases h : I = 0
  · subst h; simp [Computer.psi, vec, Computer.init, h0]
  · rw [Pi.single_eq_of_ne h]
    simp [Computer.psi, vec, Computer.init, List.getElem?_set_ne (Ne.symm h), List.getElem?_replicate]
    split_ifs <;> rfl

theorem C60_null_state (q : Computer) (hq : q.WF) : q.nullState.WF ∧ q.nullState.psi = 0 ∧ q.nullState.nqubit = q.nqubit := by
  refine ⟨⟨hq.nbasis, by simp [Computer.nullState, hq.len], hq.new⟩, ?_, rfl⟩
  funext I
  simp only [Computer.psi, vec, Computer.nullState, List.getD_eq_getElem?_getD, List.getElem?_map, Pi.zero_apply]
  rcases q.coeff[I]? <;> rfl

theorem C60_reset (q : Computer) (hq : q.WF) : ∃ q', q.reset = .ok q' ∧ q'.WF ∧ q'.nqubit = q.nqubit ∧ q'.psi = Pi.single 0 1 := by
  have h0 : 0 < 2 ^ q.nqubit := by positivity
  have hl : 0 < (q.nullState).coeff.length := by simp [Computer.nullState, hq.len]
  refine ⟨{ q with coeff := (q.nullState).coeff.set 0 1 }, ?_, ⟨hq.nbasis, by simp [Computer.nullState, hq.len], hq.new⟩, rfl, ?_⟩
  · unfold Computer.reset wr
    rw [if_pos hl]; rfl
  · funext I
    have hn := congrFun (C60_null_state q hq).2.1 I
    simp only [Computer.psi, vec, List.getD_eq_getElem?_getD] at hn ⊢
    by_cases h : I = 0
    · subst h; rw [List.getElem?_set_self hl]; simp
    · rw [List.getElem?_set_ne (Ne.symm h), hn, Pi.single_eq_of_ne h]; rfl

/-- C60: `set_state` on valid basis states: every listed amplitude is set (the last one given for a basis state wins)
and everything else is 0. -/
theorem C60_set_state (q : Computer) (st : List (ℕ × ℂ)) (hq : q.WF) (hs : ∀ b ∈ st, b.1 < 2 ^ q.nqubit) :
    ∃ q', q.setState st = .ok q' ∧ q'.WF ∧ q'.nqubit = q.nqubit ∧
      ∀ I, q'.psi I = match st.reverse.find? (fun b => b.1 = I) with
        | some b => b.2
        | none => 0 := by
  have key : ∀ (st : List (ℕ × ℂ)) (l : List ℂ), l.length = 2 ^ q.nqubit → (∀ b ∈ st, b.1 < 2 ^ q.nqubit) →
      ∃ l', st.foldlM (fun l b => wr l b.1 b.2) l = .ok l' ∧ l'.length = 2 ^ q.nqubit ∧
        ∀ I, l'.getD I 0 = match st.reverse.find? (fun b => b.1 = I) with
          | some b => b.2
          | none => l.getD I 0 := by
    intro st
    induction st with
    | nil => intro l hl _; exact ⟨l, rfl, hl, fun I => rfl⟩
    | cons b st ih =>
      intro l hl hb
      have hlt : b.1 < l.length := by rw [hl]; exact hb b (by simp)
      obtain ⟨l', e1, e2, e3⟩ := ih (l.set b.1 b.2) (by simpa using hl) (fun x hx => hb x (by simp [hx]))
      refine ⟨l', ?_, e2, ?_⟩
      · rw [List.foldlM_cons]; unfold wr; rw [if_pos hlt]; exact e1
      · intro I
        rw [e3 I, List.reverse_cons, List.find?_append]
        rcases hf : st.reverse.find? (fun b => b.1 = I) with _ | y
        · rw [hf]
          simp only [Option.none_or]
          by_cases h : b.1 = I
          · subst h; simp [hlt]
          · simp [h]
        · rw [hf]; simp
  obtain ⟨l', e1, e2, e3⟩ := key st (q.coeff.map fun _ => (0 : ℂ)) (by simp [hq.len]) hs
  refine ⟨{ q with coeff := l' }, ?_, ⟨hq.nbasis, e2, hq.new⟩, rfl, ?_⟩
  · unfold Computer.setState; rw [e1]; rfl
  · intro I
    show l'.getD I 0 = _
    rw [e3 I]
    have h0 : (q.coeff.map fun _ => (0 : ℂ)).getD I 0 = 0 := by
      simp only [List.getD_eq_getElem?_getD, List.getElem?_map]
      rcases q.coeff[I]? <;> rfl
    rw [h0]

/-! ### histories -/

/-- state-changing calls -/
inductive Cmd
  | gate (g : Gate) | gateSafe (g : Gate) | circuit (c : Circuit) | circuitSafe (c : Circuit) | constant (z : ℂ)
  | operator (A : QubitOperator) | matrix (M : List (List ℂ)) | sparse (M : SMat) | reset | null | setState (st : List (ℕ × ℂ))

noncomputable def Cmd.run (q : Computer) : Cmd → Except Exc Computer
  | .gate g => q.applyGate g
  | .gateSafe g => q.applyGateSafe g
  | .circuit c => q.applyCircuit c
  | .circuitSafe c => q.applyCircuitSafe c
  | .constant z => .ok (q.applyConstant z)
  | .operator A => q.applyOperator A
  | .matrix M => q.applyMatrix M
  | .sparse M => q.applySparseMatrix M
  | .reset => q.reset
  | .null => .ok q.nullState
  | .setState st => q.setState st

theorem addVec_length : ∀ (r c l : List ℂ), addVec r c = .ok l → l.length = r.length := by
  intro r
  induction r with
  | nil => intro c l h; cases c <;> (cases h; rfl)
  | cons a r ih =>
    intro c l h
    cases c with
    | nil => cases h
    | cons b c =>
      obtain ⟨l1, h1, h2⟩ := bind_ok h
      cases h2
      simp [ih c l1 h1]

theorem cmd_wf (q q' : Computer) (c : Cmd) (hq : q.WF) (h : c.run q = .ok q') : q'.WF ∧ q'.nqubit = q.nqubit := by
  cases c with
  | gate g => have := applyGate_step hq h; exact ⟨this.wf hq, this.nqubit⟩
  | gateSafe g => have := applyGateSafe_step hq h; exact ⟨this.wf hq, this.nqubit⟩
  | circuit c => have := applyAll_step _ (fun _ _ _ hq h => applyGate_step hq h) c q q' hq h; exact ⟨this.wf hq, this.nqubit⟩
  | circuitSafe c => have := applyAll_step _ (fun _ _ _ hq h => applyGateSafe_step hq h) c q q' hq h; exact ⟨this.wf hq, this.nqubit⟩
  | constant z => cases h; exact ⟨⟨hq.nbasis, by simp [Computer.applyConstant, hq.len], hq.new⟩, rfl⟩
  | operator A =>
    obtain ⟨⟨q1, r1⟩, h1, h2⟩ := bind_ok h
    cases h2
    have key := foldlM_inv (fun s : Computer × List ℂ => s.1.WF ∧ s.1.nqubit = q.nqubit ∧ s.1.coeff = q.coeff ∧ s.2.length = q.nbasis)
      _ (by
        intro s t s' ⟨w1, w2, w3, w4⟩ e
        obtain ⟨qa, f1, f2⟩ := bind_ok e
        obtain ⟨r, k1, k2⟩ := bind_ok f2
        cases k2
        have st := applyAll_step _ (fun _ _ _ hq h => applyGate_step hq h) t.2 s.1 qa w1 f1
        have wa := st.wf w1
        refine ⟨⟨wa.nbasis, ?_, wa.new⟩, st.nqubit.trans w2, rfl, ?_⟩
        · show q.coeff.length = 2 ^ qa.nqubit
          rw [st.nqubit, w2, hq.len]
        · rw [← w4]; exact addVec_length _ _ _ k1) A _ _ ⟨hq, rfl, rfl, by simp⟩ h1
    obtain ⟨w1, w2, _, w4⟩ := key
    exact ⟨⟨w1.nbasis, by show r1.length = _; rw [w4, hq.nbasis, w2], w1.new⟩, w2⟩
  | matrix M =>
    obtain ⟨l, h1, h2⟩ := bind_ok h
    cases h2
    refine ⟨⟨hq.nbasis, ?_, hq.new⟩, rfl⟩
    have : l.length = (List.range q.nbasis).length := mapM_length _ _ _ h1
    show l.length = _
    rw [this, List.length_range, hq.nbasis]
  | sparse M =>
    obtain ⟨l, h1, h2⟩ := bind_ok h
    cases h2
    refine ⟨⟨hq.nbasis, ?_, hq.new⟩, rfl⟩
    have : l.length = (List.replicate q.nbasis (0 : ℂ)).length := by
      refine foldlM_length _ ?_ M _ l h1
      intro l i l' h
      refine foldlM_length _ ?_ i.2 _ l' h
      intro l j l' h
      obtain ⟨_, _, h⟩ := bind_ok h
      obtain ⟨_, _, h⟩ := bind_ok h
      exact wr_length h
    show l.length = _
    rw [this, List.length_replicate, hq.nbasis]
  | reset =>
    obtain ⟨q1, e, w, n, _⟩ := C60_reset q hq
    rw [show q.reset = .ok q' from h] at e; cases e; exact ⟨w, n⟩
  | null => cases h; exact ⟨(C60_null_state q hq).1, rfl⟩
  | setState st =>
    obtain ⟨l, h1, h2⟩ := bind_ok h
    cases h2
    refine ⟨⟨hq.nbasis, ?_, hq.new⟩, rfl⟩
    have : l.length = (q.coeff.map fun _ => (0 : ℂ)).length := foldlM_length _ (fun l b l' h => wr_length h) st _ l h1
    show l.length = _
    rw [this, List.length_map, hq.len]

/-- C60: after every history of state-changing calls that return, starting from a new computer, the state vector has
exactly `2^n` entries and the scratch vector is all zero. -/
theorem C60_history (n : ℕ) (cmds : List Cmd) (q : Computer) (h : cmds.foldlM (fun q c => c.run q) (Computer.init n) = .ok q) :
    q.WF ∧ q.nqubit = n :=
  foldlM_inv (fun q => q.WF ∧ q.nqubit = n) _ (fun q c q' hq e => ⟨(cmd_wf q q' c hq.1 e).1, (cmd_wf q q' c hq.1 e).2.trans hq.2⟩)
    cmds _ q ⟨(C60_init n).1, rfl⟩ h

/-- a history that returns: two gates, an operator, a reset -/
theorem C60_example : ∃ q, ([.constant 2, .null, .setState [(1, 0.5)], .reset] : List Cmd).foldlM (fun q c => c.run q) (Computer.init 2) = .ok q := by
  have h0 := (C60_init 2).1
  have h1 := (cmd_wf _ _ (.constant 2) h0 rfl)
  have h2 := (cmd_wf _ _ .null h1.1 rfl)
  obtain ⟨q3, e3, w3, n3, _⟩ := C60_set_state _ [(1, 0.5)] h2.1 (by
    intro b hb; rw [List.mem_singleton.1 hb, h2.2, h1.2]; decide)
  obtain ⟨q4, e4, _⟩ := C60_reset q3 w3
  refine ⟨q4, ?_⟩
  simp only [List.foldlM_cons, List.foldlM_nil, Cmd.run, except_ok_bind]
  rw [e3, except_ok_bind, e4]; rfl

end QF
