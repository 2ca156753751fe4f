import Verif.Model.Counters
import Verif.Props.Resources
import Verif.Props.TrotterExact

/-!
C102: the counters of the quantum Krylov algorithms.
-/
namespace QF

/-- the CNOT gates of one Trotter step for an operator -/
def stepCost (H : QubitOperator) : ℕ := (H.map fun t => ladderCost (weight t.2)).sum

/-- the number of Pauli term measurements is that of measuring `H` in each state and the real and the imaginary part of `H` and of `S` for each pair of states -/
theorem C102_measures (Nl k : ℕ) : qkMeasures Nl k = ∑ p ∈ Finset.range k, ∑ q ∈ Finset.range (p + 1), if p = q then Nl else 2 * Nl + 2 := by
  have inner : ∀ p, ∑ q ∈ Finset.range (p + 1), (if p = q then Nl else 2 * Nl + 2) = Nl + p * (2 * Nl + 2) := by
    intro p
    rw [Finset.sum_range_succ, if_pos rfl, Finset.sum_congr rfl (fun q hq => if_neg (by have := Finset.mem_range.1 hq; omega)), Finset.sum_const, Finset.card_range, smul_eq_mul]
    ring
  simp only [inner]
  unfold qkMeasures
  induction k with
  | zero => simp
  | succ k ih =>
    rw [Finset.sum_range_succ, ← ih]
    cases k with
    | zero => simp
    | succ k => simp only [Nat.add_sub_cancel]; ring

/-- C102: SRQK with at least two states reports, as the CNOT gates of its deepest circuit, twice those of the preparation and of one evolution circuit: `2 N` times those of
one Trotter step, whatever the time step and the number of states -/
theorem C102_srqk (A : QkAlg) (hn : 2 ≤ A.nstates) {r : Counters} (h : A.srqkCounters = .ok r) :
    r.params = A.nstates ∧ r.cnot = 2 * (A.uprep.getNumCnots + (A.trotterNumber.toNat * stepCost A.ham : ℕ)) ∧ r.measures = qkMeasures A.ham.length A.nstates := by
  unfold QkAlg.srqkCounters at h
  rw [if_neg (by omega)] at h
  obtain ⟨⟨C, ph⟩, e, h⟩ := Cost.bind_ok h
  cases h
  unfold QkAlg.evolution at e
  rw [if_pos (by omega)] at e
  refine ⟨rfl, ?_, rfl⟩
  simp only
  rw [C16_additive, C16_additive, C102_trotter _ _ _ _ 0 false (.inl e), Cost.nil, zero_add]
  rfl

theorem detPrep_cost (A : QkAlg) (ref : List ℕ) (old : Option ℂ) {U : Circuit} {ph : Option ℂ} (h : A.detPrep ref old = .ok (U, ph)) : U.getNumCnots = 0 := by
  unfold QkAlg.detPrep at h
  have : ∀ (l : List ℕ) (s s' : Circuit × Option ℂ), s.1.getNumCnots = 0 → l.foldlM (fun (s : Circuit × Option ℂ) j => (do
    let b ← (ref[j]?).elim (.error .indexError) pure
    if b = 1 then do
      let x ← makeGate "X" j j 0
      pure (s.1.addGate x, some 1)
    else pure s : Except Exc (Circuit × Option ℂ))) s = .ok s' → s'.1.getNumCnots = 0 := by
    intro l
    induction l with
    | nil => intro s s' hs h; cases h; exact hs
    | cons j l ih =>
      intro s s' hs h
      rw [List.foldlM_cons] at h
      obtain ⟨s1, h1, h⟩ := Cost.bind_ok h
      refine ih s1 s' ?_ h
      obtain ⟨b, _, h1⟩ := Cost.bind_ok h1
      by_cases hb : b = 1
      · rw [if_pos hb] at h1
        obtain ⟨x, hx, h1⟩ := Cost.bind_ok h1
        cases h1
        have := (Cost.make_label hx).1
        show (s.1.addGate x).getNumCnots = 0
        rw [Cost.addGate, hs, Cost.zero_of (by rw [this]; decide) (by rw [this]; decide), add_zero]
      · rw [if_neg hb] at h1; cases h1; exact hs
  exact this _ _ _ rfl h

/-- C102: MRSQK with `diagonalize_each_step` (the default) and at least two states per reference reports `2 N` times the CNOT gates of one Trotter step -/
theorem C102_mrsqk (A : QkAlg) (refs : List (List ℕ)) (last : List ℕ) (o : Counters) (hn : 2 ≤ A.nstates) (hr : refs ≠ []) {r : Counters}
    (h : A.mrsqkCounters refs last true o = .ok r) :
    r.cnot = 2 * (A.trotterNumber.toNat * stepCost A.ham : ℕ) ∧ r.measures = qkMeasures A.ham.length (refs.length * A.nstates) + o.measures := by
  unfold QkAlg.mrsqkCounters at h
  obtain ⟨⟨U, p⟩, eU, h⟩ := Cost.bind_ok h
  obtain ⟨⟨C, ph⟩, e, h⟩ := Cost.bind_ok h
  have hk : refs.length * A.nstates ≠ 1 := by
    have := List.length_pos_iff.2 hr
    intro hm
    have := Nat.eq_one_of_mul_eq_one_left hm
    omega
  simp only [if_true, if_neg hk] at h
  cases h
  unfold QkAlg.evolution at e
  rw [if_pos (by omega)] at e
  refine ⟨?_, rfl⟩
  simp only
  rw [C16_additive, detPrep_cost A last none eU, C102_trotter _ _ _ _ 0 false (.inl e), zero_add]
  rfl

/-- C102, refuted for `diagonalize_each_step=False`: MRSQK then reports the CNOT gates of the preliminary SRQK calculation as those of its own deepest circuit -/
theorem C102_mrsqk_stale (A : QkAlg) (refs : List (List ℕ)) (last : List ℕ) (o : Counters) {r : Counters} (h : A.mrsqkCounters refs last false o = .ok r) : r.cnot = o.cnot := by
  unfold QkAlg.mrsqkCounters at h
  obtain ⟨⟨U, p⟩, eU, h⟩ := Cost.bind_ok h
  obtain ⟨⟨C, ph⟩, e, h⟩ := Cost.bind_ok h
  cases h
  rfl

/-- a two-qubit example: the Hamiltonian `Z0 Z1`, two Krylov states -/
noncomputable def qkDemo (N : ℤ) : QkAlg := { nqb := 2, ham := [(1, [gZ 0, gZ 1])], nstates := 2, dt := 0.5, trotterNumber := N }

theorem qkDemo_evolution {N : ℤ} (hN : 1 ≤ N) : ∃ C ph, (qkDemo N).evolution 1 = .ok (C, ph) := by
  have hc : Circuit.Canonical [gZ 0, gZ 1] := by
    rw [canonical_iff]
    refine ⟨?_, by simp [gZ]⟩
    intro g hg
    simp only [List.mem_cons, List.not_mem_nil, or_false] at hg
    rcases hg with rfl | rfl
    exacts [⟨.inr (.inr rfl), make_Z _ 0⟩, ⟨.inr (.inr rfl), make_Z _ 0⟩]
  obtain ⟨C, ph, -, h, -⟩ := trotterize_fits 2 (qkDemo N).ham (-Complex.I * (1 : ℕ) * (qkDemo N).dt) N 1 le_rfl (by omega)
    (fun t ht => by rw [List.mem_singleton.1 ht]; exact canonical_trotter hc)
    (fun t ht g hg => by
      rw [List.mem_singleton.1 ht] at hg
      simp only [List.mem_cons, List.not_mem_nil, or_false] at hg
      rcases hg with rfl | rfl <;> decide)
    (fun t ht => by rw [List.mem_singleton.1 ht]; simp)
  exact ⟨C, ph, by unfold QkAlg.evolution; rw [if_pos one_pos]; exact h⟩

theorem qkDemo_cost (N : ℤ) : stepCost (qkDemo N).ham = 2 := by simp [stepCost, qkDemo, ladderCost, weight, gZ]

/-- C102: with two Trotter steps after an SRQK calculation with one, MRSQK reports 8 CNOT gates in its deepest circuit when it diagonalizes in each step, and 4 when it does not -/
theorem C102_mrsqk_example : ∃ o r r', (qkDemo 1).srqkCounters = .ok o ∧ o.cnot = 4 ∧
    (qkDemo 2).mrsqkCounters [[1, 0]] [1, 0] true o = .ok r ∧ r.cnot = 8 ∧ (qkDemo 2).mrsqkCounters [[1, 0]] [1, 0] false o = .ok r' ∧ r'.cnot = 4 := by
  obtain ⟨C, ph, h1⟩ := qkDemo_evolution (N := 1) le_rfl
  obtain ⟨D, ph', h2⟩ := qkDemo_evolution (N := 2) (by norm_num)
  have e1 : ∃ o, (qkDemo 1).srqkCounters = .ok o := by
    unfold QkAlg.srqkCounters
    rw [if_neg (by simp [qkDemo])]
    rw [show (qkDemo 1).nstates - 1 = 1 from rfl, h1]
    exact ⟨_, rfl⟩
  obtain ⟨o, e1⟩ := e1
  have c1 := (C102_srqk (qkDemo 1) le_rfl e1).2.1
  rw [qkDemo_cost] at c1
  have c1' : o.cnot = 4 := by rw [c1]; rfl
  have hp : ∃ U p, (qkDemo 2).detPrep [1, 0] none = .ok (U, p) := by
    refine ⟨[gX 0], some 1, ?_⟩
    unfold QkAlg.detPrep
    rw [show (qkDemo 2).nqb = 2 from rfl, show List.range 2 = [0, 1] from rfl]
    have := make_X 0 0
    simp [List.foldlM_cons, this, except_ok_bind, pure, Except.pure, Circuit.addGate, Option.elim]
  obtain ⟨U, p, hp⟩ := hp
  have e2 : ∀ b, ∃ r, (qkDemo 2).mrsqkCounters [[1, 0]] [1, 0] b o = .ok r := by
    intro b
    unfold QkAlg.mrsqkCounters
    rw [hp, except_ok_bind, show (qkDemo 2).nstates - 1 = 1 from rfl, h2]
    exact ⟨_, rfl⟩
  obtain ⟨r, e3⟩ := e2 true
  obtain ⟨r', e4⟩ := e2 false
  have c3 := (C102_mrsqk (qkDemo 2) _ _ o le_rfl (by simp) e3).1
  rw [qkDemo_cost] at c3
  have c4 := C102_mrsqk_stale (qkDemo 2) _ _ o e4
  exact ⟨o, r, r', e1, c1', e3, by rw [c3]; rfl, e4, by rw [c4, c1']⟩

end QF
