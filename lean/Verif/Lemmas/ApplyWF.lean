import Verif.Props.ExpVal
import Verif.Props.Jacobi

/-!
A successful application of any circuit leaves a well-formed computer, whatever the gates.
-/
namespace QF

theorem foldlM_keep {α β : Type} (P : β → Prop) {f : β → α → Except Exc β} (l : List α) (h : ∀ s, P s → ∀ x s', f s x = .ok s' → P s') :
    ∀ s s', P s → l.foldlM f s = .ok s' → P s' := by
  induction l with
  | nil => intro s s' hs e; cases e; exact hs
  | cons x l ih =>
    intro s s' hs e
    rw [List.foldlM_cons] at e
    obtain ⟨m, e1, e2⟩ := bindOk e
    exact ih m s' (h s hs x m e1) e2

theorem wr_length {l l' : List ℂ} {I : ℕ} {v : ℂ} (e : wr l I v = .ok l') : l'.length = l.length := by
  unfold wr at e
  split at e
  · cases e; simp
  · cases e

theorem pairKernel_length {a b c d : ℂ} {ps : List (ℕ × ℕ)} {l l' : List ℂ} (e : pairKernel a b c d ps l = .ok l') : l'.length = l.length := by
  refine foldlM_keep (fun s => s.length = l.length) ps ?_ l l' rfl e
  intro s hs p s' e
  obtain ⟨x0, -, e⟩ := bindOk e
  obtain ⟨x1, -, e⟩ := bindOk e
  obtain ⟨m, e1, e⟩ := bindOk e
  rw [wr_length e, wr_length e1, hs]

theorem scaleKernel_length {a : ℂ} {ps : List ℕ} {l l' : List ℂ} (e : scaleKernel a ps l = .ok l') : l'.length = l.length := by
  refine foldlM_keep (fun s => s.length = l.length) ps ?_ l l' rfl e
  intro s hs p s' e
  obtain ⟨x0, -, e⟩ := bindOk e
  rw [wr_length e, hs]

theorem swapKernel_length {ps : List (ℕ × ℕ)} {l l' : List ℂ} (e : swapKernel ps l = .ok l') : l'.length = l.length := by
  refine foldlM_keep (fun s => s.length = l.length) ps ?_ l l' rfl e
  intro s hs p s' e
  obtain ⟨x0, -, e⟩ := bindOk e
  obtain ⟨x1, -, e⟩ := bindOk e
  obtain ⟨m, e1, e⟩ := bindOk e
  rw [wr_length e, wr_length e1, hs]

theorem antiKernel_length {b c : ℂ} {ps : List (ℕ × ℕ)} {l l' : List ℂ} (e : antiKernel b c ps l = .ok l') : l'.length = l.length := by
  refine foldlM_keep (fun s => s.length = l.length) ps ?_ l l' rfl e
  intro s hs p s' e
  obtain ⟨x0, -, e⟩ := bindOk e
  obtain ⟨x1, -, e⟩ := bindOk e
  obtain ⟨m, e1, e⟩ := bindOk e
  rw [wr_length e, wr_length e1, hs]

theorem scale2_length {P Q : Prop} [Decidable P] [Decidable Q] {a b : ℂ} {is js : List ℕ} {l l' : List ℂ}
    (e : (do let l ← (if P then scaleKernel a is l else pure l); if Q then scaleKernel b js l else pure l : Except Exc (List ℂ)) = .ok l') : l'.length = l.length := by
  obtain ⟨m, e1, e⟩ := bindOk e
  have h1 : m.length = l.length := by
    by_cases h : P
    · rw [if_pos h] at e1; exact scaleKernel_length e1
    · rw [if_neg h] at e1; cases e1; rfl
  by_cases h : Q
  · rw [if_pos h] at e; rw [scaleKernel_length e, h1]
  · rw [if_neg h] at e; cases e; exact h1

theorem accum_length {basis : List ℕ} {cond : ℕ → Bool} {dest : ℕ → ℕ} {op : ℂ} {c nw nw' : List ℂ} (e : accum basis cond dest op c nw = .ok nw') : nw'.length = nw.length := by
  refine foldlM_keep (fun s => s.length = nw.length) basis ?_ nw nw' rfl e
  intro s hs J s' e
  by_cases h : cond J = true
  · simp only [h, if_true] at e
    obtain ⟨x, -, e⟩ := bindOk e
    obtain ⟨y, -, e⟩ := bindOk e
    rw [wr_length e, hs]
  · simp only [h] at e; cases e; exact hs

theorem accum2_length {q : Computer} {g : Gate} {nw : List ℂ} (e : accum2 q g = .ok nw) : nw.length = q.newCoeff.length := by
  unfold accum2 at e
  refine foldlM_keep (fun s => s.length = q.newCoeff.length) _ ?_ _ _ rfl e
  intro s hs i s' e
  refine foldlM_keep (fun s => s.length = q.newCoeff.length) _ ?_ _ _ hs e
  intro s hs j s' e
  dsimp only at e
  split at e
  · rw [accum_length e, hs]
  · cases e; exact hs

theorem apply1_wf {q q' : Computer} {g : Gate} (hq : q.WF) (e : q.apply1 g = .ok q') : q'.WF ∧ q'.nqubit = q.nqubit := by
  unfold Computer.apply1 at e
  obtain ⟨l, e1, e⟩ := bindOk e
  cases e
  refine ⟨⟨hq.nbasis, ?_, hq.new⟩, rfl⟩
  show l.length = _
  rw [← hq.len]
  split at e1
  · exact pairKernel_length e1
  · split at e1
    · exact scale2_length e1
    · split at e1
      · exact swapKernel_length e1
      · exact antiKernel_length e1

theorem apply2A_length {nb t c : ℕ} {m22 m23 m32 m33 : ℂ} {l l' : List ℂ} (e : apply2A nb t c m22 m23 m32 m33 l = .ok l') : l'.length = l.length := by
  unfold apply2A at e
  simp only at e
  split at e
  · exact pairKernel_length e
  · split at e
    · exact scale2_length e
    · split at e
      · exact swapKernel_length e
      · exact antiKernel_length e

theorem apply2B_length {nb t c : ℕ} {m22 m23 m32 m33 : ℂ} {l l' : List ℂ} (e : apply2B nb t c m22 m23 m32 m33 l = .ok l') : l'.length = l.length := by
  unfold apply2B at e
  simp only at e
  split at e
  · exact pairKernel_length e
  · split at e
    · exact scale2_length e
    · split at e
      · exact swapKernel_length e
      · exact antiKernel_length e

theorem apply2_wf {q q' : Computer} {g : Gate} (hq : q.WF) (e : q.apply2 g = .ok q') : q'.WF ∧ q'.nqubit = q.nqubit := by
  unfold Computer.apply2 at e
  simp only at e
  split at e
  · obtain ⟨q1, e1, e⟩ := bindOk e
    have h1 : q1.WF ∧ q1.nqubit = q.nqubit := by
      split at e1
      · obtain ⟨l, e2, e1⟩ := bindOk e1
        cases e1
        exact ⟨⟨hq.nbasis, by show l.length = _; rw [apply2A_length e2, hq.len], hq.new⟩, rfl⟩
      · cases e1; exact ⟨hq, rfl⟩
    split at e
    · obtain ⟨l, e2, e⟩ := bindOk e
      cases e
      exact ⟨⟨h1.1.nbasis, by show l.length = _; rw [apply2B_length e2, h1.1.len], h1.1.new⟩, h1.2⟩
    · cases e; exact h1
  · obtain ⟨nw, e1, e⟩ := bindOk e
    cases e
    have hl : nw.length = 2 ^ q.nqubit := by rw [accum2_length e1, hq.new]; simp
    exact ⟨⟨hq.nbasis, hl, by show nw.map _ = _; rw [List.map_const', hl]⟩, rfl⟩

theorem applyGate_wf {q q' : Computer} {g : Gate} (hq : q.WF) (e : q.applyGate g = .ok q') : q'.WF ∧ q'.nqubit = q.nqubit := by
  unfold Computer.applyGate at e
  obtain ⟨q1, e1, e⟩ := bindOk e
  have h1 : q1.WF ∧ q1.nqubit = q.nqubit := by
    split at e1
    · exact apply1_wf hq e1
    · cases e1; exact ⟨hq, rfl⟩
  split at e
  · obtain ⟨h2, h3⟩ := apply2_wf h1.1 e
    exact ⟨h2, h3.trans h1.2⟩
  · cases e; exact h1

/-- every successful `apply_circuit` keeps the computer well formed -/
theorem applyCircuit_wf {q q' : Computer} {C : List Gate} (hq : q.WF) (e : q.applyCircuit C = .ok q') : q'.WF ∧ q'.nqubit = q.nqubit := by
  refine foldlM_keep (fun s => s.WF ∧ s.nqubit = q.nqubit) C ?_ q q' ⟨hq, rfl⟩ e
  intro s hs g s' e
  obtain ⟨h1, h2⟩ := applyGate_wf hs.1 e
  exact ⟨h1, h2.trans hs.2⟩

theorem addVec_length : ∀ {a b c : List ℂ}, addVec a b = .ok c → c.length = a.length := by
  intro a
  induction a with
  | nil => intro b c e; cases b <;> cases e <;> rfl
  | cons x a ih =>
    intro b c e
    cases b with
    | nil => cases e
    | cons y b =>
      obtain ⟨l, e1, e⟩ := bindOk e
      cases e
      simp [ih e1]

/-- every successful `apply_operator` keeps the computer well formed -/
theorem applyOperator_wf {q q' : Computer} {A : QubitOperator} (hq : q.WF) (e : q.applyOperator A = .ok q') : q'.WF ∧ q'.nqubit = q.nqubit := by
  unfold Computer.applyOperator at e
  obtain ⟨⟨q1, r⟩, e1, e⟩ := bindOk e
  cases e
  have h := foldlM_keep (fun s : Computer × List ℂ => s.1.WF ∧ s.1.nqubit = q.nqubit ∧ s.2.length = 2 ^ q.nqubit) A ?_ _ _ ⟨hq, rfl, by simp [hq.nbasis]⟩ e1
  · exact ⟨⟨h.1.nbasis, by show r.length = _; rw [h.2.2, h.2.1], h.1.new⟩, h.2.1⟩
  · intro s hs t s' e
    obtain ⟨p, e1, e⟩ := bindOk e
    obtain ⟨r', e2, e⟩ := bindOk e
    cases e
    obtain ⟨w, n⟩ := applyCircuit_wf hs.1 e1
    have n' : p.nqubit = q.nqubit := n.trans hs.2.1
    exact ⟨⟨w.nbasis, by show q.coeff.length = 2 ^ p.nqubit; rw [hq.len, n'], w.new⟩, n', by rw [addVec_length e2, hs.2.2]⟩

/-! ### computers that differ in the operation counters only -/

/-- both fail with the same exception, or both succeed with related values -/
def ExRel {α β : Type} (R : α → β → Prop) : Except Exc α → Except Exc β → Prop
  | .ok a, .ok b => R a b
  | .error a, .error b => a = b
  | _, _ => False

theorem ExRel.bind {α β α' β' : Type} {R : α → β → Prop} {S : α' → β' → Prop} {x : Except Exc α} {y : Except Exc β} {f : α → Except Exc α'} {g : β → Except Exc β'}
    (h : ExRel R x y) (hf : ∀ a b, R a b → ExRel S (f a) (g b)) : ExRel S (x >>= f) (y >>= g) := by
  cases x <;> cases y
  · exact h
  · exact h.elim
  · exact h.elim
  · exact hf _ _ h

theorem ExRel.same {α α' β' : Type} {S : α' → β' → Prop} (x : Except Exc α) {f : α → Except Exc α'} {g : α → Except Exc β'}
    (hf : ∀ a, ExRel S (f a) (g a)) : ExRel S (x >>= f) (x >>= g) := by
  cases x
  · rfl
  · exact hf _

theorem ExRel.pure {α β : Type} {R : α → β → Prop} {a : α} {b : β} (h : R a b) : ExRel R (Pure.pure a) (Pure.pure b) := h

theorem ExRel.eq {α : Type} {x y : Except Exc α} (h : ExRel (fun a b => a = b) x y) : x = y := by
  cases x <;> cases y
  · exact congrArg _ h
  · exact h.elim
  · exact h.elim
  · exact congrArg _ h

theorem ExRel.foldlM {α β γ : Type} {R : α → β → Prop} {f : α → γ → Except Exc α} {g : β → γ → Except Exc β} (l : List γ)
    (h : ∀ a b x, x ∈ l → R a b → ExRel R (f a x) (g b x)) : ∀ a b, R a b → ExRel R (l.foldlM f a) (l.foldlM g b) := by
  induction l with
  | nil => intro a b hab; exact hab
  | cons x l ih =>
    intro a b hab
    rw [List.foldlM_cons, List.foldlM_cons]
    exact (h a b x (by simp) hab).bind fun a' b' hab' => ih (fun a b y hy => h a b y (by simp [hy])) a' b' hab'

/-- equal up to the operation counters -/
structure Twin (p q : Computer) : Prop where
  nqubit : p.nqubit = q.nqubit
  nbasis : p.nbasis = q.nbasis
  coeff : p.coeff = q.coeff
  new : p.newCoeff = q.newCoeff

theorem Twin.wf {p q : Computer} (h : Twin p q) (hp : p.WF) : q.WF :=
  ⟨by rw [← h.nbasis, ← h.nqubit]; exact hp.nbasis, by rw [← h.coeff, ← h.nqubit]; exact hp.len, by rw [← h.new, ← h.nqubit]; exact hp.new⟩

theorem Twin.psi {p q : Computer} (h : Twin p q) : p.psi = q.psi := congrArg vec h.coeff

theorem apply1_twin {p q : Computer} (h : Twin p q) (g : Gate) : ExRel Twin (p.apply1 g) (q.apply1 g) := by
  unfold Computer.apply1
  simp only [h.nbasis, h.coeff]
  exact ExRel.same _ fun l => ⟨h.nqubit, rfl, rfl, by first | rfl | exact h.new⟩

theorem apply2_twin {p q : Computer} (h : Twin p q) (g : Gate) : ExRel Twin (p.apply2 g) (q.apply2 g) := by
  unfold Computer.apply2 accum2
  simp only [h.nbasis, h.coeff, h.new]
  split
  · refine ExRel.bind (R := Twin) ?_ ?_
    · split
      · exact ExRel.same _ fun l => ⟨h.nqubit, rfl, rfl, rfl⟩
      · exact h
    · intro a b hab
      split
      · rw [hab.nbasis, hab.coeff]
        exact ExRel.same _ fun l => ⟨hab.nqubit, rfl, rfl, hab.new⟩
      · exact hab
  · exact ExRel.same _ fun l => ⟨h.nqubit, rfl, rfl, rfl⟩

theorem applyGate_twin {p q : Computer} (h : Twin p q) (g : Gate) : ExRel Twin (p.applyGate g) (q.applyGate g) := by
  unfold Computer.applyGate
  refine ExRel.bind (R := Twin) ?_ ?_
  · split
    · exact apply1_twin h g
    · exact h
  · intro a b hab
    split
    · exact apply2_twin hab g
    · exact hab

theorem applyCircuit_twin {p q : Computer} (h : Twin p q) (C : List Gate) : ExRel Twin (p.applyCircuit C) (q.applyCircuit C) :=
  ExRel.foldlM C (fun _ _ g _ hab => applyGate_twin hab g) p q h

end QF
