import Verif.Model.Algorithm
import Verif.Props.UccAnsatz
import Verif.Props.StatePrep
import Verif.Props.Penalty
import Verif.Props.PQE
import Verif.Props.Jacobi
import Verif.Props.Krylov
import Verif.Props.Lifecycle

/-!
C96: what the constructors of the algorithm classes accept, and what the object they return is ready for.
-/
namespace QF

open SQOperator (DescSort)
open QubitOperator (SortOracle)

/-! ### the specification -/

/-- the arguments name a reference of kind `statePrep`: `ref` is the occupation list that becomes the reference determinant -/
inductive NamesReference (cls : AlgClass) (S : QSystem) (a : AlgArgs) (ref : List ℕ) : Prop
  | hf (h : a.statePrep = "occupation_list") (hr : a.reference = .none) (hs : S.hfReference = some ref)
  | occupation (h : a.statePrep = "occupation_list") (hr : a.reference = .list ref)
  | circuit (C : Circuit) (h : a.statePrep = "unitary_circ") (hr : a.reference = .circuit C) (hs : S.hfReference = some ref)
  | computer (q : Computer) (h : a.statePrep = "computer") (hr : a.reference = .computer q) (hs : S.hfReference = some ref)
      (hf : a.fast = true) (hq : q.nqubit = ref.length) (hc : cls = .uccnvqe ∨ cls = .adaptvqe)

/-- orbitals were frozen when the system was made -/
def QSystem.HasFrozen (S : QSystem) : Prop := ∃ c v, S.frozen = some (c, v) ∧ 0 < c + v

/-- what the base constructor accepts -/
def Acceptable (cls : AlgClass) (S : QSystem) (a : AlgArgs) (ref : List ℕ) : Prop :=
  NamesReference cls S a ref ∧ S.hamiltonian.numQubits = ref.length ∧ ¬(cls = .qpe ∧ S.HasFrozen)

theorem frozen_test (S : QSystem) : S.frozenTest = true ↔ S.HasFrozen := by
  unfold QSystem.HasFrozen QSystem.frozenTest
  cases S.frozen with
  | none => simp
  | some p => obtain ⟨c, v⟩ := p; simp

theorem computerInitializable_iff (c : AlgClass) : c.computerInitializable = true ↔ c = .uccnvqe ∨ c = .adaptvqe := by
  cases c <;> simp [AlgClass.computerInitializable]

theorem getReference_ok {S : QSystem} {ref : List ℕ} : S.getReference = .ok ref ↔ S.hfReference = some ref := by
  unfold QSystem.getReference
  cases S.hfReference <;> simp

/-- what the reference part returns -/
theorem referencePart_ok {cls : AlgClass} {S : QSystem} {a : AlgArgs} {ref : List ℕ} {p U : Circuit} {q : Option Computer}
    (h : referencePart cls S a = .ok (ref, p, U, q)) :
    NamesReference cls S a ref ∧ buildRefprep ref = .ok p ∧
      (a.statePrep = "occupation_list" → U = p ∧ q = none) ∧
      (∀ C, a.statePrep = "unitary_circ" → a.reference = .circuit C → U = C ∧ q = none) ∧
      (∀ c, a.statePrep = "computer" → a.reference = .computer c → U = [] ∧ q = some c) := by
  unfold referencePart at h
  by_cases h1 : a.statePrep = "occupation_list"
  · rw [if_pos h1] at h
    have h2 : a.statePrep ≠ "unitary_circ" := by rw [h1]; decide
    have h3 : a.statePrep ≠ "computer" := by rw [h1]; decide
    obtain ⟨r, e1, h⟩ := bindOk h
    obtain ⟨p', e2, h⟩ := bindOk h
    cases h
    refine ⟨?_, e2, fun _ => ⟨rfl, rfl⟩, fun _ h => absurd h h2, fun _ h => absurd h h3⟩
    cases hr : a.reference with
    | none => rw [hr] at e1; exact .hf h1 hr (getReference_ok.1 e1)
    | list l => rw [hr] at e1; cases e1; exact .occupation h1 hr
    | circuit C => rw [hr] at e1; cases e1
    | computer C => rw [hr] at e1; cases e1
    | other => rw [hr] at e1; cases e1
  · rw [if_neg h1] at h
    by_cases h2 : a.statePrep = "unitary_circ"
    · rw [if_pos h2] at h
      have h3 : a.statePrep ≠ "computer" := by rw [h2]; decide
      cases hr : a.reference with
      | circuit C =>
        rw [hr] at h
        obtain ⟨r, e1, h⟩ := bindOk h
        obtain ⟨p', e2, h⟩ := bindOk h
        cases h
        exact ⟨.circuit _ h2 hr (getReference_ok.1 e1), e2, fun h => absurd h h1, fun D _ hD => by cases hD; exact ⟨rfl, rfl⟩, fun _ h => absurd h h3⟩
      | none => rw [hr] at h; cases h
      | list l => rw [hr] at h; cases h
      | computer C => rw [hr] at h; cases h
      | other => rw [hr] at h; cases h
    · rw [if_neg h2] at h
      by_cases h3 : a.statePrep = "computer"
      · rw [if_pos h3] at h
        cases hr : a.reference with
        | computer c =>
          rw [hr] at h
          simp only at h
          by_cases hf : a.fast = false
          · rw [if_pos hf] at h; cases h
          rw [if_neg hf] at h
          obtain ⟨r, e1, h⟩ := bindOk h
          by_cases hq : c.nqubit ≠ r.length
          · rw [if_pos hq] at h; cases h
          rw [if_neg hq] at h
          by_cases hc : cls.computerInitializable = false
          · rw [if_pos hc] at h; cases h
          rw [if_neg hc] at h
          obtain ⟨p', e2, h⟩ := bindOk h
          cases h
          exact ⟨.computer c h3 hr (getReference_ok.1 e1) (by simpa using hf) (by simpa using hq) ((computerInitializable_iff _).1 (by simpa using hc)), e2, fun h => absurd h h1, fun _ h => absurd h h2,
            fun D _ hD => by cases hD; exact ⟨rfl, rfl⟩⟩
        | none => rw [hr] at h; cases h
        | list l => rw [hr] at h; cases h
        | circuit C => rw [hr] at h; cases h
        | other => rw [hr] at h; cases h
      · rw [if_neg h3] at h; cases h

theorem referencePart_total {cls : AlgClass} {S : QSystem} {a : AlgArgs} {ref : List ℕ} (h : NamesReference cls S a ref) :
    ∃ p U q, referencePart cls S a = .ok (ref, p, U, q) := by
  obtain ⟨p, hp, -⟩ := refprep_eq ref
  unfold referencePart
  cases h with
  | hf h hr hs => exact ⟨p, p, none, by rw [if_pos h, hr]; simp only [getReference_ok.2 hs, except_ok_bind, hp]; rfl⟩
  | occupation h hr => exact ⟨p, p, none, by rw [if_pos h, hr]; simp only [pure, Except.pure, except_ok_bind, hp]⟩
  | circuit C h hr hs => exact ⟨p, C, none, by rw [if_neg (by rw [h]; decide), if_pos h, hr]; simp only [getReference_ok.2 hs, except_ok_bind, hp]; rfl⟩
  | computer q h hr hs hf hq hc =>
    refine ⟨p, [], some q, ?_⟩
    rw [if_neg (by rw [h]; decide), if_neg (by rw [h]; decide), if_pos h, hr]
    simp only [hf, getReference_ok.2 hs, except_ok_bind, hp]
    rw [if_neg (by simp), if_neg (by simpa using hq), if_neg (by rw [(computerInitializable_iff _).2 hc]; simp)]
    rfl

/-- C96: the base constructor returns exactly for acceptable arguments: a reference of the announced kind, a Hamiltonian on exactly as many qubits as the
reference has, a computer only for the variational algorithms in fast mode and with the right number of qubits, no frozen orbitals for phase estimation. -/
theorem C96_accepts (cls : AlgClass) (S : QSystem) (a : AlgArgs) : (∃ A, algorithmInit cls S a = .ok A) ↔ ∃ ref, Acceptable cls S a ref := by
  constructor
  · rintro ⟨A, h⟩
    unfold algorithmInit at h
    split_ifs at h with hq
    obtain ⟨⟨ref, p, U, q⟩, e1, h⟩ := bindOk h
    simp only at h
    split_ifs at h with hn
    exact ⟨ref, (referencePart_ok e1).1, by simpa using hn, fun x => hq ⟨x.1, (frozen_test S).2 x.2⟩⟩
  · rintro ⟨ref, h1, h2, h3⟩
    obtain ⟨p, U, q, e⟩ := referencePart_total h1
    unfold algorithmInit
    rw [if_neg (fun x => h3 ⟨x.1, (frozen_test S).1 x.2⟩), e, except_ok_bind]
    simp only
    rw [if_neg (by simpa using h2)]
    exact ⟨_, rfl⟩

/-- C96: everything else is refused with `ValueError`; only a system without Hartree-Fock reference, where it is needed, is an `AttributeError`. -/
theorem C96_refuses (cls : AlgClass) (S : QSystem) (a : AlgArgs) (h : ∀ ref, ¬Acceptable cls S a ref) :
    algorithmInit cls S a = .error .valueError ∨ (algorithmInit cls S a = .error .attributeError ∧ S.hfReference = none) := by
  have hn : ∀ A, algorithmInit cls S a ≠ .ok A := fun A hA => by
    obtain ⟨ref, hr⟩ := (C96_accepts cls S a).1 ⟨A, hA⟩
    exact h ref hr
  unfold algorithmInit at hn ⊢
  split_ifs at hn ⊢ with hq
  · exact .inl rfl
  have hbuild : ∀ r, ∃ p, buildRefprep r = .ok p := fun r => by obtain ⟨p, hp, _⟩ := refprep_eq r; exact ⟨p, hp⟩
  have key : (∃ x, referencePart cls S a = .ok x) ∨ referencePart cls S a = .error .valueError ∨
      (referencePart cls S a = .error .attributeError ∧ S.hfReference = none) := by
    unfold referencePart
    by_cases h1 : a.statePrep = "occupation_list"
    · rw [if_pos h1]
      cases hr : a.reference with
      | none =>
        simp only
        cases hs : S.hfReference with
        | none => exact .inr (.inr ⟨by unfold QSystem.getReference; rw [hs]; rfl, rfl⟩)
        | some r =>
          obtain ⟨p, hp⟩ := hbuild r
          exact .inl ⟨(r, p, p, none), by simp only [getReference_ok.2 hs, except_ok_bind, hp]; rfl⟩
      | list l =>
        obtain ⟨p, hp⟩ := hbuild l
        exact .inl ⟨(l, p, p, none), by simp only [pure, Except.pure, except_ok_bind, hp]⟩
      | circuit C => exact .inr (.inl rfl)
      | computer C => exact .inr (.inl rfl)
      | other => exact .inr (.inl rfl)
    · rw [if_neg h1]
      by_cases h2 : a.statePrep = "unitary_circ"
      · rw [if_pos h2]
        cases hr : a.reference with
        | circuit C =>
          cases hs : S.hfReference with
          | none => exact .inr (.inr ⟨by unfold QSystem.getReference; rw [hs]; rfl, rfl⟩)
          | some r =>
            obtain ⟨p, hp⟩ := hbuild r
            exact .inl ⟨(r, p, C, none), by simp only [getReference_ok.2 hs, except_ok_bind, hp]; rfl⟩
        | none => exact .inr (.inl rfl)
        | list l => exact .inr (.inl rfl)
        | computer C => exact .inr (.inl rfl)
        | other => exact .inr (.inl rfl)
      · rw [if_neg h2]
        by_cases h3 : a.statePrep = "computer"
        · rw [if_pos h3]
          cases hr : a.reference with
          | computer c =>
            simp only
            by_cases hf : a.fast = false
            · rw [if_pos hf]; exact .inr (.inl rfl)
            rw [if_neg hf]
            cases hs : S.hfReference with
            | none => exact .inr (.inr ⟨by unfold QSystem.getReference; rw [hs]; rfl, rfl⟩)
            | some r =>
              obtain ⟨p, hp⟩ := hbuild r
              simp only [getReference_ok.2 hs, except_ok_bind, hp]
              by_cases hq : c.nqubit ≠ r.length
              · rw [if_pos hq]; exact .inr (.inl rfl)
              rw [if_neg hq]
              by_cases hc : cls.computerInitializable = false
              · rw [if_pos hc]; exact .inr (.inl rfl)
              · rw [if_neg hc]; exact .inl ⟨_, rfl⟩
          | none => exact .inr (.inl rfl)
          | list l => exact .inr (.inl rfl)
          | circuit C => exact .inr (.inl rfl)
          | other => exact .inr (.inl rfl)
        · rw [if_neg h3]; exact .inr (.inl rfl)
  rcases key with ⟨⟨r, p, U, q⟩, e⟩ | e | ⟨e, hs⟩
  · rw [e, except_ok_bind] at hn ⊢
    simp only at hn ⊢
    split_ifs at hn ⊢
    · exact .inl rfl
    · exact absurd rfl (hn _)
  · rw [e]; exact .inl rfl
  · rw [e]; exact .inr ⟨rfl, hs⟩

/-! ### the object -/

/-- all gates of the operator act on the first `n` qubits -/
theorem fits_of_numQubits {H : QubitOperator} {n : ℕ} (h : H.numQubits ≤ n) : ∀ t ∈ H, t.2.Fits n := fun t ht g hg => by
  have := (C13_operator_num_qubits H).1 t ht g hg
  exact ⟨by omega, by omega⟩

/-- C96: what the base constructor returns: the reference determinant, the number of its qubits, which is that of the Hamiltonian, the Hamiltonian itself and the
Hartree-Fock energy of the system, 0 if there is none. -/
theorem C96_object (cls : AlgClass) (S : QSystem) (a : AlgArgs) (A : AlgObj) (h : algorithmInit cls S a = .ok A) :
    Acceptable cls S a A.ref ∧ A.cls = cls ∧ A.sys = S ∧ A.nqb = A.ref.length ∧ A.ham = S.hamiltonian ∧ A.ham.numQubits = A.nqb ∧ A.nl = S.hamiltonian.length ∧
      (∀ e, S.hfEnergy = some e → A.hfEnergy = e) ∧ (S.hfEnergy = none → A.hfEnergy = 0) ∧ buildRefprep A.ref = .ok A.refprep ∧
      (a.statePrep = "occupation_list" → A.uprep = A.refprep ∧ A.computer = none) ∧
      (∀ C, a.statePrep = "unitary_circ" → a.reference = .circuit C → A.uprep = C ∧ A.computer = none) ∧
      (∀ q, a.statePrep = "computer" → a.reference = .computer q → A.uprep = [] ∧ A.computer = some q) := by
  unfold algorithmInit at h
  split_ifs at h with hq
  obtain ⟨⟨ref, p, U, q⟩, e1, h⟩ := bindOk h
  simp only at h
  split_ifs at h with hn
  cases h
  obtain ⟨g1, g2, g3, g4, g5⟩ := referencePart_ok e1
  have hn' : S.hamiltonian.numQubits = ref.length := by simpa using hn
  exact ⟨⟨g1, hn', fun x => hq ⟨x.1, (frozen_test S).2 x.2⟩⟩, rfl, rfl, rfl, rfl, hn', rfl, fun e he => by simp [he], fun he => by simp [he], g2, g3, g4, g5⟩

theorem ansatz_base {cls : AlgClass} {S : QSystem} {a : AlgArgs} {A : AlgObj} (h : ansatzInit cls S a = .ok A) :
    ∃ A0, algorithmInit cls S a = .ok A0 ∧ A = { A0 with ham := A.ham, nl := A.nl, irrep := A.irrep } ∧ chooseIrrep S.pointGroup a.irrep = .ok A.irrep ∧
      ((a.penalty = none ∧ A.ham = A0.ham ∧ A.nl = A0.nl) ∨ ∃ v ops eigs scales, a.penalty = some v ∧ cls ≠ .uccnpqe ∧ cls ≠ .spqe ∧ checkPenalty v = .ok (ops, eigs, scales) ∧
        penaltyHamiltonian false S.hamiltonian ops eigs scales = .ok A.ham ∧ A.nl = A.ham.length) := by
  unfold ansatzInit at h
  obtain ⟨A0, e0, h⟩ := bindOk h
  obtain ⟨A1, e1, h⟩ := bindOk h
  obtain ⟨i, e2, h⟩ := bindOk h
  cases h
  cases hp : a.penalty with
  | none =>
    rw [hp] at e1
    cases e1
    exact ⟨_, e0, rfl, e2, .inl ⟨rfl, rfl, rfl⟩⟩
  | some v =>
    rw [hp] at e1
    simp only at e1
    split_ifs at e1 with hc
    obtain ⟨⟨ops, eigs, scales⟩, e3, e1⟩ := bindOk e1
    obtain ⟨H, e4, e1⟩ := bindOk e1
    cases e1
    exact ⟨A0, e0, rfl, e2, .inr ⟨v, ops, eigs, scales, rfl, fun x => hc (.inl x), fun x => hc (.inr x), e3, e4, rfl⟩⟩

/-- the invariant of the penalty Hamiltonian: Pauli gates on the first `n` qubits -/
def PauliOn (n : ℕ) (A : QubitOperator) : Prop := A.IsPauli ∧ A.numQubits ≤ n

theorem pauliOn_append {n : ℕ} {A B : QubitOperator} (hA : PauliOn n A) (hB : PauliOn n B) : PauliOn n (A ++ B) := by
  refine ⟨isPauli_append hA.1 hB.1, numQubits_le.2 fun t ht => ?_⟩
  rcases List.mem_append.1 ht with h | h
  · exact numQubits_le.1 hA.2 t h
  · exact numQubits_le.1 hB.2 t h

theorem pauliOn_nil (n : ℕ) : PauliOn n [] := ⟨fun t ht => by simp at ht, Nat.zero_le _⟩

theorem pauliOn_simplify {n : ℕ} {A : QubitOperator} (hA : PauliOn n A) : ∃ R, A.simplify = .ok R ∧ PauliOn n R := by
  obtain ⟨R, D, e, _, hN, _, _, _, _, _, hq⟩ := C20_simplify A hA.1
  exact ⟨R, e, normal_isPauli hN, hq.trans hA.2⟩

theorem pauliOn_products {n : ℕ} {A B : QubitOperator} (hA : PauliOn n A) (hB : PauliOn n B) : PauliOn n (A.products B) := by
  have key : ∀ t ∈ A.products B, ∃ u ∈ A, ∃ v ∈ B, ∀ g ∈ t.2, g ∈ u.2 ∨ g ∈ v.2 := by
    intro t ht
    unfold QubitOperator.products at ht
    simp only [List.mem_flatMap, List.mem_map] at ht
    obtain ⟨u, hu, v, hv, rfl⟩ := ht
    exact ⟨u, hu, v, hv, fun g hg => by simpa [addCircuit_eq] using hg⟩
  constructor
  · intro t ht g hg
    obtain ⟨u, hu, v, hv, h⟩ := key t ht
    rcases h g hg with h | h
    · exact hA.1 u hu g h
    · exact hB.1 v hv g h
  · refine (C13_operator_num_qubits _).2 n fun t ht g hg => ?_
    obtain ⟨u, hu, v, hv, h⟩ := key t ht
    rcases h g hg with h | h
    · exact fits_of_numQubits hA.2 u hu g h
    · exact fits_of_numQubits hB.2 v hv g h

theorem pauliOn_mult {n : ℕ} {A : QubitOperator} (hA : PauliOn n A) (z : ℂ) : PauliOn n (A.multCoeffs z) := by
  constructor
  · intro t ht g hg
    obtain ⟨u, hu, rfl⟩ := List.mem_map.1 ht
    exact hA.1 u hu g hg
  · refine numQubits_le.2 fun t ht => ?_
    obtain ⟨u, hu, rfl⟩ := List.mem_map.1 ht
    exact numQubits_le.1 hA.2 u hu

theorem pauliOn_term {n : ℕ} {A R : QubitOperator} (hA : PauliOn n A) (e s : ℝ) (h : penaltyTerm A e s = .ok R) : PauliOn n R := by
  unfold penaltyTerm at h
  have ht : (QubitOperator.addTerm (QubitOperator.addOp [] A) (-(e : ℂ)) []) = A ++ [(-(e : ℂ), [])] := by
    rw [QubitOperator.addTerm, addOp_eq, List.nil_append]
  have h1 : PauliOn n (A ++ [(-(e : ℂ), ([] : Circuit))]) := pauliOn_append hA ⟨by intro t ht; simp at ht; subst ht; simp, by simp [QubitOperator.numQubits, Circuit.numQubits]⟩
  rw [ht] at h
  simp only [addOp_eq, List.nil_append] at h
  obtain ⟨P, e1, h⟩ := bindOk h
  cases h
  unfold QubitOperator.operatorProduct at e1
  simp only [if_true] at e1
  obtain ⟨B, e2, e1⟩ := bindOk e1
  obtain ⟨R1, e3, h3⟩ := pauliOn_simplify h1
  rw [e3] at e2; cases e2
  obtain ⟨R2, e4, h4⟩ := pauliOn_simplify (pauliOn_products h3 h1)
  rw [e4] at e1; cases e1
  exact pauliOn_mult h4 _

/-- the penalty Hamiltonian acts on the qubits of the Hamiltonian and of the penalty operators -/
theorem penalty_on {n : ℕ} {H R : QubitOperator} {ops : List QubitOperator} {eigs scales : List ℝ} (hH : PauliOn n H) (hO : ∀ A ∈ ops, PauliOn n A)
    (h : penaltyHamiltonian false H ops eigs scales = .ok R) : PauliOn n R := by
  unfold penaltyHamiltonian at h
  rw [if_neg (by simp)] at h
  split_ifs at h with hl
  obtain ⟨P, e1, h⟩ := bindOk h
  have hP : ∀ (l : List ℕ) (A P : QubitOperator), PauliOn n A → l.foldlM (fun (pens : QubitOperator) i => (do
      let op ← pyIndex ops i
      let e ← pyIndex eigs i
      let s ← pyIndex scales i
      let pen ← penaltyTerm op e s
      (pens.addOp pen).simplify : Except Exc QubitOperator)) A = .ok P → PauliOn n P := by
    intro l
    induction l with
    | nil => intro A P hA h; cases h; exact hA
    | cons i l ih =>
      intro A P hA h
      rw [List.foldlM_cons] at h
      obtain ⟨B, e, h⟩ := bindOk h
      refine ih B P ?_ h
      obtain ⟨op, f1, e⟩ := bindOk e
      obtain ⟨x, f2, e⟩ := bindOk e
      obtain ⟨s, f3, e⟩ := bindOk e
      obtain ⟨pen, f4, e⟩ := bindOk e
      have hop : op ∈ ops := by
        unfold pyIndex at f1
        cases hi : ops[i]? with
        | none => rw [hi] at f1; cases f1
        | some y => rw [hi] at f1; cases f1; exact List.mem_of_getElem? hi
      rw [addOp_eq] at e
      obtain ⟨R, g1, g2⟩ := pauliOn_simplify (pauliOn_append hA (pauliOn_term (hO op hop) x s f4))
      rw [g1] at e; cases e
      exact g2
  rw [addOp_eq, addOp_eq, List.nil_append] at h
  obtain ⟨R', g1, g2⟩ := pauliOn_simplify (pauliOn_append hH (hP _ _ _ (pauliOn_nil n) e1))
  rw [g1] at h; cases h
  exact g2

/-- the object is ready for its computations: a well-formed initial computer of its size; preparation and Hamiltonian on its qubits.  It is asked of the
arguments that a reference circuit has exactly simulated gates on those qubits, that a reference computer is well formed and that the penalty operators are
Pauli operators on those qubits: the constructor does not check this. -/
structure ArgsSound (S : QSystem) (a : AlgArgs) (n : ℕ) : Prop where
  ham : S.hamiltonian.IsPauli
  circuit : ∀ C, a.statePrep = "unitary_circ" → a.reference = .circuit C → C.Fits n ∧ ∀ g ∈ C, ExactGate g
  computer : ∀ q, a.reference = .computer q → q.WF
  penalty : ∀ v ops eigs scales, a.penalty = some v → checkPenalty v = .ok (ops, eigs, scales) → ∀ A ∈ ops, PauliOn n A

/-- C96: an object that was constructed is ready for its computations. -/
theorem C96_ready (cls : AlgClass) (S : QSystem) (a : AlgArgs) (A : AlgObj) (h : ansatzInit cls S a = .ok A) (hs : ArgsSound S a A.nqb) (t : PoolArg) (P : SQOpPool)
    (tops : List ℕ) (tamps : List ℝ) : (A.ucc a t P tops tamps).Ready ∧ A.nqb = A.ref.length ∧ PauliOn A.nqb A.ham := by
  obtain ⟨A0, e0, hA, -, hp⟩ := ansatz_base h
  obtain ⟨g1, g2, g3, g4, g5, g6, g7, g8, g9, g10, g11, g12, g13⟩ := C96_object cls S a A0 e0
  have hn : A.nqb = A0.nqb := by rw [hA]
  have hr : A.ref = A0.ref := by rw [hA]
  have hu : A.uprep = A0.uprep := by rw [hA]
  have hq : A.computer = A0.computer := by rw [hA]
  have hham : PauliOn A.nqb A.ham := by
    have h0 : PauliOn A.nqb S.hamiltonian := ⟨hs.ham, by rw [hn, ← g6, g5]⟩
    rcases hp with ⟨_, e, _⟩ | ⟨v, ops, eigs, scales, e1, _, _, e2, e3, _⟩
    · rw [e, g5]; exact h0
    · exact penalty_on h0 (hs.penalty v ops eigs scales e1 e2) e3
  have hprep : A.uprep.Fits A.nqb ∧ ∀ g ∈ A.uprep, ExactGate g := by
    rw [hu, hn]
    obtain ⟨C, hC, e⟩ := refprep_eq A0.ref
    rw [g10] at hC; cases hC
    have hocc := occGates_fits A0.ref
    cases g1.1 with
    | hf h' _ _ => rw [(g11 h').1, g4, e]; exact hocc
    | occupation h' _ => rw [(g11 h').1, g4, e]; exact hocc
    | circuit C h' hr' _ => rw [(g12 C h' hr').1, ← hn]; exact hs.circuit C h' hr'
    | computer q h' hr' _ _ _ _ => rw [(g13 q h' hr').1]; exact ⟨fun g hg => by simp at hg, fun g hg => by simp at hg⟩
  have hcomp : (A.computer.getD (Computer.init A.nqb)).WF ∧ (A.computer.getD (Computer.init A.nqb)).nqubit = A.nqb := by
    rw [hq]
    cases g1.1 with
    | hf h' _ _ => rw [(g11 h').2]; exact ⟨Computer.WF.init _, rfl⟩
    | occupation h' _ => rw [(g11 h').2]; exact ⟨Computer.WF.init _, rfl⟩
    | circuit C h' hr' _ => rw [(g12 C h' hr').2]; exact ⟨Computer.WF.init _, rfl⟩
    | computer q h' hr' _ _ hl _ => rw [(g13 q h' hr').2, hn, g4]; exact ⟨hs.computer q hr', hl⟩
  exact ⟨⟨hcomp.1, hcomp.2, hprep, fun t ht => ⟨fits_of_numQubits hham.2 t ht, fun g hg => PauliGate.exact (isPauli_circuits hham.1 t ht g hg)⟩⟩, by rw [hn, hr]; exact g4, hham⟩

/-- C96: the reference state: the determinant of the occupation list, the state the circuit prepares from `|0…0⟩`, the state of the computer. -/
theorem C96_state (cls : AlgClass) (S : QSystem) (a : AlgArgs) (A : AlgObj) (h : ansatzInit cls S a = .ok A) (t : PoolArg) (P : SQOpPool)
    (tops : List ℕ) (tamps : List ℝ) :
    (a.statePrep = "occupation_list" → Occ A.ref → ∀ R, IsRefDet A.ref R → (A.ucc a t P tops tamps).reference = Pi.single R 1) ∧
    (∀ C, a.statePrep = "unitary_circ" → a.reference = .circuit C → (A.ucc a t P tops tamps).reference = C.op (Pi.single 0 1)) ∧
    (∀ q, a.statePrep = "computer" → a.reference = .computer q → (A.ucc a t P tops tamps).reference = q.psi) := by
  obtain ⟨A0, e0, hA, -, -⟩ := ansatz_base h
  obtain ⟨g1, g2, g3, g4, g5, g6, g7, g8, g9, g10, g11, g12, g13⟩ := C96_object cls S a A0 e0
  have hr : A.ref = A0.ref := by rw [hA]
  have hu : A.uprep = A0.uprep := by rw [hA]
  have hq : A.computer = A0.computer := by rw [hA]
  have key : (A.ucc a t P tops tamps).reference = A0.uprep.op ((A0.computer.getD (Computer.init A.nqb)).psi) := by
    unfold UccAlg.reference UccAlg.initialComputer AlgObj.ucc
    simp only [hu, hq]
  have hinit : (Computer.init A.nqb).psi = Pi.single 0 1 := (C60_init A.nqb).2
  refine ⟨fun h' hO R hR => ?_, fun C h' hC => ?_, fun q h' hC => ?_⟩
  · rw [key, (g11 h').1, (g11 h').2, Option.getD_none, hinit]
    rw [hr] at hO hR
    by_cases hne : A0.ref = []
    · obtain ⟨C, hC, e⟩ := refprep_eq A0.ref
      rw [g10] at hC; cases hC
      rw [e, hne]
      have : R = 0 := Nat.eq_of_testBit_eq fun i => by rw [hR i, hne]; simp
      rw [this]; rfl
    · obtain ⟨C, idx, q, e1, e2, e3, e4, e5, e6, e7⟩ := C43_prepares A0.ref hO hne A0.ref.length le_rfl
      rw [g10] at e1; cases e1
      have hf := occGates_fits A0.ref
      obtain ⟨C, hC, e⟩ := refprep_eq A0.ref
      rw [g10] at hC; cases hC
      obtain ⟨q', e8, _, _, e9⟩ := applyCircuit_exact (q := Computer.init A0.ref.length) A0.refprep (Computer.WF.init _) (by rw [e]; exact hf.1) (by rw [e]; exact hf.2)
      rw [e3] at e8; cases e8
      rw [(C60_init _).2] at e9
      rw [← e9, e5]
      congr 1
      exact Nat.eq_of_testBit_eq fun i => by rw [e7 i, hR i]
  · rw [key, (g12 C h' hC).1, (g12 C h' hC).2, Option.getD_none, hinit]
  · rw [key, (g13 q h' hC).1, (g13 q h' hC).2]; rfl

end QF
