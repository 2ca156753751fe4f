import Verif.Lemmas.JWEvenY
import Verif.Props.PsiRef
import Verif.Props.QiteOddY

/-!
C108: molecular Hamiltonians consist of Pauli strings with an even number of Y.  So the expectation value of the parallel build, which is
wrong for strings with an odd number of Y (C29, C30), is right for them.
-/
namespace QF
open SQOperator

/-- C108: the Jordan-Wigner transform of a self-adjoint, particle-conserving operator with real coefficients (without repeated indices, at most 39
ladder operators per term) has real coefficients and only strings with an even number of Y -/
theorem C108_jordan_wigner (o : DescSort) {n : ℕ} {A : SQOperator} (hn : ∀ t ∈ A, t.2.1.length = t.2.2.length) (hi : ∀ t ∈ A, (∀ p ∈ t.2.1, p < n) ∧ ∀ p ∈ t.2.2, p < n)
    (hd : A.Distinct) (hl : ∀ t ∈ A, t.2.1.length + t.2.2.length ≤ 39) (hH : ∀ m, n ≤ m → HermitianOn m A.op) (hr : ∀ t ∈ A, t.1.im = 0) :
    ∃ Q R, jwTransform o A false = .ok (Q, R) ∧ ∀ t ∈ Q, t.1.im = 0 ∧ t.2.PauliString n ∧ Even t.2.numY := by
  obtain ⟨Q, R, -, -, e, -⟩ := C36_jordan_wigner_partial o A hd hl
  have hb : A.Balanced n := fun t ht => ⟨hn t ht, hi t ht⟩
  have hv : A.Live := fun t ht => .inr (hd t ht)
  exact ⟨Q, R, e, fun t ht => ⟨((jw_real o hb hv hl hH e).1 t ht).1, ((jw_real o hb hv hl hH e).1 t ht).2, jw_evenY o hb hv hl hH hr e t ht⟩⟩

theorem real_fold {α : Type} (F : SQOperator → α → SQOperator) (l : List α) (h : ∀ H : SQOperator, ∀ x ∈ l, (∀ t ∈ H, t.1.im = 0) → ∀ t ∈ F H x, t.1.im = 0)
    (A : SQOperator) (hA : ∀ t ∈ A, t.1.im = 0) : ∀ t ∈ l.foldl F A, t.1.im = 0 := by
  induction l generalizing A with
  | nil => exact hA
  | cons x l ih => exact ih (fun H y hy => h H y (by simp [hy])) _ (h A x (by simp) hA)

theorem real_addTerm {H : SQOperator} (hH : ∀ t ∈ H, t.1.im = 0) (x : ℝ) (c a : List ℕ) : ∀ t ∈ H.addTerm (x : ℂ) c a, t.1.im = 0 := by
  intro t ht
  simp only [SQOperator.addTerm, List.mem_append, List.mem_singleton] at ht
  rcases ht with ht | rfl
  · exact hH t ht
  · exact Complex.ofReal_im x

theorem real_cond {H : SQOperator} (hH : ∀ t ∈ H, t.1.im = 0) (x : ℝ) {p q r s : ℕ} :
    ∀ t ∈ (if p ≠ q ∧ r ≠ s then H.addTerm (x : ℂ) [p, q] [r, s] else H), t.1.im = 0 := by
  split_ifs
  · exact real_addTerm hH _ _ _
  · exact hH

theorem psi_realCoef (D : PsiData) : ∀ t ∈ psiSqHam D, t.1.im = 0 := by
  unfold psiSqHam
  dsimp only
  refine real_fold _ _ (fun H i hi hH => real_fold _ _ (fun H j hj hH => real_fold _ _ (fun H k hk hH => real_fold _ _ (fun H l hl hH => ?_) _ hH) _ ?_) _ hH) _ ?_
  · unfold psiTwoTerms
    dsimp only
    exact real_cond (real_cond (real_cond (real_cond hH _) _) _) _
  · exact real_addTerm (real_addTerm hH _ _ _) _ _ _
  · exact real_addTerm (by simp) _ _ _

/-- C108: the Hamiltonian of every molecule built with psi4 -/
theorem C108_psi (o : DescSort) (D : PsiData) (hI : RealIntegrals D.oei D.tei) (M : PsiMolecule) (e : createPsiMol o D = .ok M) :
    ∀ t ∈ M.hamiltonian, t.1.im = 0 ∧ t.2.PauliString (2 * D.nact) ∧ Even t.2.numY := by
  obtain ⟨_, _, _, _, _, _, _, _, _, _, ej⟩ := createPsi_ok e
  obtain ⟨hl, hb, h39⟩ := psi_live D
  have h := (C93_hermitian o D hI M e).1
  refine fun t ht => ⟨(h t ht).1, (h t ht).2, jw_evenY o hb hl h39 ?_ (psi_realCoef D) ej t ht⟩
  intro m hm
  rw [psiSqHam_op D hI.right]
  exact spatial_hermitian _ _ _ _ (core_integrals hI) m hm

/-- C108: the Hamiltonian of every molecule read from a file with integrals of the usual symmetries -/
theorem C108_external (o : DescSort) (D : ExternalData) (hv : D.Valid) (h1 : ∀ p q, oneInt D p q = oneInt D q p)
    (h2 : ∀ p q r s, twoInt D p q r s = twoInt D r s p q) (M : Molecule) (e : createExternalMol o D = .ok M) :
    ∀ t ∈ M.hamiltonian, t.1.im = 0 ∧ t.2.PauliString D.nso ∧ Even t.2.numY := by
  obtain ⟨_, _, _, _, _, ej⟩ := createExternal_ok e
  obtain ⟨hl, hb, h39⟩ := external_live D hv
  have h := (C92_hermitian o D hv h1 h2 M e).1
  refine fun t ht => ⟨(h t ht).1, (h t ht).2, jw_evenY o hb hl h39 ?_ ?_ ej t ht⟩
  · intro m hm
    rw [externalSqHam_op D hv]
    exact electronic_hermitian _ _ _ (fun p q _ _ => h1 p q) (fun p q r s _ _ _ _ => h2 p q r s) m hm
  · intro t ht
    rw [externalSqHam_eq] at ht
    simp only [List.mem_append, List.mem_singleton, List.mem_map] at ht
    rcases ht with (rfl | ⟨x, -, rfl⟩) | ⟨x, -, rfl⟩ <;> exact Complex.ofReal_im _

/-- C108: so the expectation value of the Hamiltonian that the parallel build computes is right, for every schedule, state and molecule -/
theorem C108_parallel (o : DescSort) (D : PsiData) (hI : RealIntegrals D.oei D.tei) (h0 : 1 ≤ D.nact) (M : PsiMolecule) (e : createPsiMol o D = .ok M)
    (q : Computer) (hq : q.WF) (hn : q.nqubit = 2 * D.nact) (sch : Schedule) :
    ∃ q', q.directOpExpVal none M.hamiltonian = .ok (inner q.nqubit q.psi (M.hamiltonian.op q.psi), q') ∧
      q.directOpExpVal (some sch) M.hamiltonian = .ok (inner q.nqubit q.psi (M.hamiltonian.op q.psi), q) := by
  have h := C108_psi o D hI M e
  exact C29_builds_agree_partial q sch M.hamiltonian hq (by omega) (fun t ht => by rw [hn]; exact (h t ht).2)

/-- C108: the same for molecules read from a file -/
theorem C108_parallel_external (o : DescSort) (D : ExternalData) (hv : D.Valid) (h1 : ∀ p q, oneInt D p q = oneInt D q p)
    (h2 : ∀ p q r s, twoInt D p q r s = twoInt D r s p q) (h0 : 1 ≤ D.nso) (M : Molecule) (e : createExternalMol o D = .ok M)
    (q : Computer) (hq : q.WF) (hn : q.nqubit = D.nso) (sch : Schedule) :
    ∃ q', q.directOpExpVal none M.hamiltonian = .ok (inner q.nqubit q.psi (M.hamiltonian.op q.psi), q') ∧
      q.directOpExpVal (some sch) M.hamiltonian = .ok (inner q.nqubit q.psi (M.hamiltonian.op q.psi), q) := by
  have h := C108_external o D hv h1 h2 M e
  exact C29_builds_agree_partial q sch M.hamiltonian hq (by omega) (fun t ht => by rw [hn]; exact (h t ht).2)

/-- C107 and C108 together: for a molecule built with psi4 QITE with the pool of all strings and with the pool of the strings with an odd number of Y give the same results,
in both builds -/
theorem C108_qite (o : DescSort) (D : PsiData) (hI : RealIntegrals D.oei D.tei) (M : PsiMolecule) (e : createPsiMol o D = .ok M)
    {A : QiteAlg} (hA : A.Ready) (hM : A.ham = M.hamiltonian) (hu : ∀ g ∈ A.uprep, PauliGate g ∧ g.label ≠ "Y")
    {ls : LstsqOracle} (hls : QiteAlg.IsLstsq ls) (par : Option Schedule) (hdb : A.db ≠ 0)
    (hn : 0 < A.nqb) (h6 : A.nqb ≤ 6) (hs : A.sparseSb = true) (hb : 0 ≤ A.bThresh) (hg : A.doLanczos = true → A.lanczosGap ≠ 0)
    (N : SQOpPool.NextPerm) (so : QubitOperator.SortOracle) (fuel : ℕ) (eig : EigOracle) :
    ∃ σ st m, ∃ X : Except Exc (ℝ × Option ((NMat × NMat) × ℂ)),
      QiteAlg.run N o so fuel ls eig par { A with expansionType := "complete_qubit" } = (X.map fun r => (st, QiteAlg.poolOf σ, r.1, r.2)) ∧
      QiteAlg.run N o so fuel ls eig par { A with expansionType := "cqoy" } = (X.map fun r => ({ st with nMeas := m }, QiteAlg.poolOf (oddY σ), r.1, r.2)) ∧
      m ≤ st.nMeas ∧ σ.length = 4 ^ A.nqb := by
  have h := C108_psi o D hI M e
  have hY : ∀ t ∈ A.ham, Even t.2.numY := fun t ht => (h t (hM ▸ ht)).2.2
  obtain ⟨σ, st, m, X, a1, a2, a3, a4, -⟩ := QiteAlg.C107_run hA hls (par := par) (.inr ⟨hn, hY⟩) hdb hn h6 hs hb hY (QiteAlg.real_reference hu) hg N o so fuel eig
  exact ⟨σ, st, m, X, a1, a2, by omega, a4⟩

/-- C108, a concrete case: the molecule of C93 on four qubits -/
theorem C108_example (o : DescSort) : ∃ M, createPsiMol o examplePsi = .ok M ∧ (∀ t ∈ M.hamiltonian, t.1.im = 0 ∧ t.2.PauliString 4 ∧ Even t.2.numY) ∧
    ∀ (q : Computer) (_ : q.WF) (_ : q.nqubit = 4) (sch : Schedule), ∃ q', q.directOpExpVal none M.hamiltonian = .ok (inner q.nqubit q.psi (M.hamiltonian.op q.psi), q') ∧
      q.directOpExpVal (some sch) M.hamiltonian = .ok (inner q.nqubit q.psi (M.hamiltonian.op q.psi), q) := by
  obtain ⟨-, hI, -, hn, h⟩ := C93_example
  obtain ⟨M, e, -⟩ := h o
  refine ⟨M, e, ?_, fun q hq h4 sch => C108_parallel o examplePsi hI (by omega) M e q hq (by omega) sch⟩
  have := C108_psi o examplePsi hI M e
  rwa [hn] at this

end QF
