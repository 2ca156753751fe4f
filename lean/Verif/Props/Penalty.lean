import Verif.Model.Penalty
import Verif.Props.QubitOperator
import Verif.Props.UccGradient

/-!
C74: Hamiltonians with penalty terms.
-/
namespace QF

/-- what the simplifications may drop from the penalty term `s (O - e)²`: Pauli terms of modulus at most 1e-12 before and after the
product and after the accumulation -/
def PenaltyDropped (p : QubitOperator × ℝ × ℝ) (E : Op) : Prop :=
  ∃ D1 D2 D3 : QubitOperator, D1.Negligible ∧ D2.Negligible ∧ D3.Negligible ∧
    E = D3.opLR + (p.2.2 : ℂ) • (D2.opLR + D1.opLR * (p.1.opLR - (p.2.1 : ℂ) • 1))

/-- `s (O - e)²` -/
noncomputable def penaltyOp (p : QubitOperator × ℝ × ℝ) : Op := (p.2.2 : ℂ) • (p.1.opLR - (p.2.1 : ℂ) • 1) ^ 2

theorem isPauli_append {A B : QubitOperator} (hA : A.IsPauli) (hB : B.IsPauli) : QubitOperator.IsPauli (A ++ B) := by
  intro t ht
  rcases List.mem_append.1 ht with h | h
  · exact hA t h
  · exact hB t h

theorem penaltyTerm_ok {O : QubitOperator} (hO : O.IsPauli) (e s : ℝ) :
    ∃ R D1 D2 : QubitOperator, penaltyTerm O e s = .ok R ∧ R.IsPauli ∧ D1.Negligible ∧ D2.Negligible ∧
      penaltyOp (O, e, s) = R.opLR + (s : ℂ) • (D2.opLR + D1.opLR * (O.opLR - (e : ℂ) • 1)) := by
  have ht : (QubitOperator.addTerm (QubitOperator.addOp [] O) (-(e : ℂ)) []) = O ++ [(-(e : ℂ), [])] := by
    rw [QubitOperator.addTerm, addOp_eq, List.nil_append]
  have hp : QubitOperator.IsPauli (O ++ [(-(e : ℂ), ([] : Circuit))]) := isPauli_append hO (by intro t ht; simp at ht; subst ht; simp)
  have hop : QubitOperator.opLR (O ++ [(-(e : ℂ), ([] : Circuit))]) = O.opLR - (e : ℂ) • 1 := by
    have := (C22_add O [] (-(e : ℂ)) []).2.1
    rw [QubitOperator.addTerm] at this
    rw [this]
    show _ + (-(e : ℂ)) • (1 : Op) = _
    module
  obtain ⟨R, D1, D2, e1, e2, e3, _, n1, n2, _⟩ := C21_operator_product _ _ true true hp hp
  refine ⟨R.multCoeffs s, D1, D2, ?_, ?_, n1, n2, ?_⟩
  · unfold penaltyTerm
    simp only [ht]
    rw [addOp_eq, List.nil_append, e1]; rfl
  · intro t ht g hg
    obtain ⟨u, hu, rfl⟩ := List.mem_map.1 ht
    exact canonical_api (e3 u hu) g hg
  · rw [hop] at e2
    rw [(C22_mult_coeffs R s).2.1]
    unfold penaltyOp
    rw [pow_two]
    simp only
    rw [e2]
    module

theorem penaltyLoop_ok (ps : List (QubitOperator × ℝ × ℝ)) (hp : ∀ p ∈ ps, p.1.IsPauli) :
    ∀ (A : QubitOperator), A.IsPauli → ∃ R Es, ps.foldlM (fun (pens : QubitOperator) p => do
        let pen ← penaltyTerm p.1 p.2.1 p.2.2
        (pens.addOp pen).simplify) A = .ok R ∧ R.IsPauli ∧ List.Forall₂ PenaltyDropped ps Es ∧
      A.opLR + (ps.map penaltyOp).sum = R.opLR + Es.sum := by
  induction ps with
  | nil => intro A hA; exact ⟨A, [], rfl, hA, .nil, by simp⟩
  | cons p ps ih =>
    intro A hA
    obtain ⟨P, D1, D2, e1, hP, n1, n2, h1⟩ := penaltyTerm_ok (hp p (by simp)) p.2.1 p.2.2
    obtain ⟨S, D3, e2, h2, nS, cD, nd, _, hs, _⟩ := C20_simplify (A ++ P) (isPauli_append hA hP)
    obtain ⟨R, Es, e3, hR, hE, h3⟩ := ih (fun p h => hp p (by simp [h])) S (normal_isPauli nS)
    refine ⟨R, (QubitOperator.opLR D3 + (p.2.2 : ℂ) • (D2.opLR + D1.opLR * (p.1.opLR - (p.2.1 : ℂ) • 1))) :: Es, ?_, hR, .cons ⟨D1, D2, D3, n1, n2, negligible_of nd cD hs, rfl⟩ hE, ?_⟩
    · rw [List.foldlM_cons, e1, except_ok_bind, addOp_eq, e2, except_ok_bind]; exact e3
    · have h4 : QubitOperator.opLR (A ++ P) = A.opLR + P.opLR := opLR_qappend A P
      rw [h4] at h2
      rw [List.map_cons, List.sum_cons, List.sum_cons, h1, ← add_assoc, ← add_assoc, h2]
      have : QubitOperator.opLR S + (ps.map penaltyOp).sum = R.opLR + Es.sum := h3
      calc _ = (QubitOperator.opLR S + (ps.map penaltyOp).sum) + (QubitOperator.opLR D3 + (p.2.2 : ℂ) • (D2.opLR + D1.opLR * (p.1.opLR - (p.2.1 : ℂ) • 1))) := by abel
        _ = _ := by rw [this]; abel

/-- C74: the Hamiltonian of an algorithm with penalty terms is `H + Σ sᵢ (Oᵢ - eᵢ)²`, up to the Pauli terms of modulus at most 1e-12
that the simplifications drop; it is in normal form. -/
theorem C74_penalty (H : QubitOperator) (hH : H.IsPauli) (ops : List QubitOperator) (hO : ∀ A ∈ ops, A.IsPauli) (eigs scales : List ℝ)
    (h1 : ops.length = eigs.length) (h2 : eigs.length = scales.length) :
    ∃ R D Es, penaltyHamiltonian false H ops eigs scales = .ok R ∧ R.Normal ∧ QubitOperator.Negligible D ∧
      List.Forall₂ PenaltyDropped (List.zip ops (List.zip eigs scales)) Es ∧
      H.opLR + ((List.zip ops (List.zip eigs scales)).map penaltyOp).sum = R.opLR + QubitOperator.opLR D + Es.sum := by
  obtain ⟨P, Es, e1, hP, hE, h3⟩ := penaltyLoop_ok (List.zip ops (List.zip eigs scales)) (fun p hp => hO p.1 (List.of_mem_zip hp).1) [] (by intro t ht; simp at ht)
  have hp0 : ∀ {α : Type} (l : List α) (i : ℕ) (hi : i < l.length), pyIndex l i = .ok l[i] := fun l i hi => pyIndex_ok (List.getElem?_eq_getElem hi)
  have hloop : (List.range eigs.length).foldlM (fun (pens : QubitOperator) i => (do
      let op ← pyIndex ops i
      let e ← pyIndex eigs i
      let s ← pyIndex scales i
      let pen ← penaltyTerm op e s
      (pens.addOp pen).simplify : Except Exc QubitOperator)) [] = .ok P := by
    rw [← e1]
    have hl : (List.zip ops (List.zip eigs scales)).length = eigs.length := by simp [h1, h2]
    have hz : List.zip ops (List.zip eigs scales) = (List.range eigs.length).pmap (fun i (hi : i < eigs.length) => (ops[i]'(by omega), eigs[i], scales[i]'(by omega))) (by simp) := by
      apply List.ext_getElem
      · simp [h1, h2]
      · intro i h h'; simp
    rw [hz]
    have gen : ∀ (l : List ℕ) (hl : ∀ i ∈ l, i < eigs.length) (A : QubitOperator),
        l.foldlM (fun (pens : QubitOperator) i => (do
          let op ← pyIndex ops i
          let e ← pyIndex eigs i
          let s ← pyIndex scales i
          let pen ← penaltyTerm op e s
          (pens.addOp pen).simplify : Except Exc QubitOperator)) A =
        (l.pmap (fun i (hi : i < eigs.length) => (ops[i]'(by omega), eigs[i], scales[i]'(by omega))) hl).foldlM (fun (pens : QubitOperator) p => (do
          let pen ← penaltyTerm p.1 p.2.1 p.2.2
          (pens.addOp pen).simplify : Except Exc QubitOperator)) A := by
      intro l
      induction l with
      | nil => intro _ _; rfl
      | cons i l ih =>
        intro hl A
        have hi := hl i (by simp)
        rw [List.foldlM_cons, List.pmap, List.foldlM_cons, hp0 ops i (by omega), except_ok_bind, hp0 eigs i hi, except_ok_bind, hp0 scales i (by omega), except_ok_bind]
        congr 1
        funext B
        exact ih (fun i hi => hl i (by simp [hi])) B
    exact gen _ _ _
  obtain ⟨R, D, e2, h4, nR, cD, nd, _, hs, _⟩ := C20_simplify (H ++ P) (isPauli_append hH hP)
  refine ⟨R, D, Es, ?_, nR, negligible_of nd cD hs, hE, ?_⟩
  · unfold penaltyHamiltonian
    rw [if_neg (by simp), if_neg (by simp [h1, h2]), hloop, except_ok_bind, addOp_eq, addOp_eq, List.nil_append, e2]
  · have h5 : QubitOperator.opLR (H ++ P) = H.opLR + P.opLR := opLR_qappend H P
    have h6 : QubitOperator.opLR [] = 0 := by simp [QubitOperator.opLR]
    rw [h6, zero_add] at h3
    rw [h3, ← add_assoc, ← h5, h4]

/-- C74: a state with the requested eigenvalues is not penalised: `Σ sᵢ (Oᵢ - eᵢ)²` vanishes on it. -/
theorem C74_eigenstate (ps : List (QubitOperator × ℝ × ℝ)) (ψ : St) (h : ∀ p ∈ ps, p.1.opLR ψ = (p.2.1 : ℂ) • ψ) : (ps.map penaltyOp).sum ψ = 0 := by
  induction ps with
  | nil => rfl
  | cons p ps ih =>
    rw [List.map_cons, List.sum_cons, LinearMap.add_apply, ih fun p hp => h p (by simp [hp]), add_zero]
    unfold penaltyOp
    have e : (p.1.opLR - (p.2.1 : ℂ) • 1) ψ = 0 := by rw [LinearMap.sub_apply, h p (by simp)]; simp
    rw [LinearMap.smul_apply, pow_two, Module.End.mul_apply, e, map_zero, smul_zero]

/-- C74: lists of different lengths and projective algorithms are refused. -/
theorem C74_refused (pqe : Bool) (H : QubitOperator) (ops : List QubitOperator) (eigs scales : List ℝ)
    (h : pqe = true ∨ ops.length ≠ eigs.length ∨ eigs.length ≠ scales.length) : penaltyHamiltonian pqe H ops eigs scales = .error .valueError := by
  unfold penaltyHamiltonian
  by_cases hp : pqe = true
  · rw [if_pos hp]
  · rw [if_neg hp, if_pos]
    rintro ⟨a, b⟩
    rcases h with h | h | h
    · exact hp h
    · exact h a
    · exact h b

/-- C74: the hypotheses are met, with a penalty operator that is not diagonal. -/
theorem C74_example : QubitOperator.IsPauli [(1, [gZ 0])] ∧ QubitOperator.IsPauli [(0.5, [gX 0, gX 1])] := by
  constructor <;> intro t ht g hg <;> simp only [List.mem_cons, List.not_mem_nil, or_false] at ht <;> subst ht <;>
    simp only [List.mem_cons, List.not_mem_nil, or_false] at hg
  · subst hg; exact ⟨.make (make_Z 0 0), .inr (.inr rfl)⟩
  · rcases hg with rfl | rfl
    · exact ⟨.make (make_X 0 0), .inl rfl⟩
    · exact ⟨.make (make_X 1 1), .inl rfl⟩

end QF
