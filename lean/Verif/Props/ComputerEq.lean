import Verif.Props.ExpVal
import Verif.Props.MatrixElement
import Verif.Model.ComputerOps

/-!
C17: equality of computers.
-/
namespace QF

/-- C17: `==` on computers holds exactly if they have the same number of qubits and the same amplitudes; the numbers of gates applied so far are not compared. -/
theorem C17_computer_eq {a b : Computer} (ha : a.WF) (hb : b.WF) :
    (a.beq b = true ↔ a.nqubit = b.nqubit ∧ a.psi = b.psi) ∧
    (a.beq b = true ↔ b = { a with noneOps := b.noneOps, ntwoOps := b.ntwoOps }) ∧ (a.beq b = b.beq a) ∧ a.beq a = true := by
  have key : ∀ {a b : Computer}, a.beq b = true ↔ a.nqubit = b.nqubit ∧ a.coeff = b.coeff := by
    intro a b
    unfold Computer.beq
    by_cases h : a.nqubit = b.nqubit <;> simp [h]
  have hp : a.nqubit = b.nqubit → (a.coeff = b.coeff ↔ a.psi = b.psi) := by
    intro h
    refine ⟨fun e => by unfold Computer.psi; rw [e], fun e => ?_⟩
    have hl : a.coeff.length = b.coeff.length := by rw [ha.len, hb.len, h]
    refine List.ext_getElem hl fun i h1 h2 => ?_
    have := congrFun e i
    simp only [Computer.psi, vec] at this
    rwa [List.getD_eq_getElem _ _ h1, List.getD_eq_getElem _ _ h2] at this
  refine ⟨key.trans ⟨fun h => ⟨h.1, (hp h.1).1 h.2⟩, fun h => ⟨h.1, (hp h.1).2 h.2⟩⟩, key.trans ⟨fun h => ?_, fun h => ?_⟩, ?_, key.2 ⟨rfl, rfl⟩⟩
  · have h1 := ha.nbasis
    have h2 := hb.nbasis
    have h3 := ha.new
    have h4 := hb.new
    cases a; cases b
    simp only at *
    obtain ⟨rfl, rfl⟩ := h
    simp [h1, h2, h3, h4]
  · rw [h]; exact ⟨rfl, rfl⟩
  · rw [Bool.eq_iff_iff, key, key]
    exact ⟨fun h => ⟨h.1.symm, h.2.symm⟩, fun h => ⟨h.1.symm, h.2.symm⟩⟩

/-- C17: equal computers stay equal under every circuit of exact gates, and a computer is not equal to one in another basis state -/
theorem C17_computer_congr {a b : Computer} (ha : a.WF) (hb : b.WF) (h : a.beq b = true) {c : Circuit} (hf : c.Fits a.nqubit) (he : ∀ g ∈ c, ExactGate g) :
    ∃ a' b', a.applyCircuit c = .ok a' ∧ b.applyCircuit c = .ok b' ∧ a'.beq b' = true := by
  obtain ⟨hn, hp⟩ := (C17_computer_eq ha hb).1.1 h
  obtain ⟨a', e1, w1, n1, f1⟩ := applyCircuit_exact _ ha hf he
  obtain ⟨b', e2, w2, n2, f2⟩ := applyCircuit_exact _ hb (hn ▸ hf) he
  exact ⟨a', b', e1, e2, (C17_computer_eq w1 w2).1.2 ⟨by rw [n1, n2, hn], by rw [f1, f2, hp]⟩⟩

/-- a concrete case: fresh computers are equal, and differ after an `X` on one of them -/
theorem C17_computer_example : ∃ q, (Computer.init 1).applyCircuit [gX 0] = .ok q ∧ (Computer.init 1).beq (Computer.init 1) = true ∧ (Computer.init 1).beq q = false ∧
    (Computer.init 1).beq (Computer.init 2) = false := by
  obtain ⟨q, e, w, n, f⟩ := applyCircuit_exact [gX 0] (Computer.WF.init 1) (by intro g hg; obtain rfl := List.mem_singleton.1 hg; simp [gX, Computer.init])
    (by intro g hg; obtain rfl := List.mem_singleton.1 hg; exact (pauliGate_X 0).exact)
  refine ⟨q, e, (C17_computer_eq (Computer.WF.init 1) (Computer.WF.init 1)).2.2.2, ?_, ?_⟩
  · rw [Bool.eq_false_iff]
    intro h
    have := ((C17_computer_eq (Computer.WF.init 1) w).1.1 h).2
    have := congrFun this 0
    rw [f, init_psi] at this
    simp [Circuit.op, op_gX, opX_apply, flipBit] at this
  · rw [Bool.eq_false_iff]
    intro h
    have := ((C17_computer_eq (Computer.WF.init 1) (Computer.WF.init 2)).1.1 h).1
    simp [Computer.init] at this

end QF
