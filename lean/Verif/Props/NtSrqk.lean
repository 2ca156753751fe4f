import Verif.Model.NtSrqk
import Verif.Props.Mrsqk
import Verif.Props.TrotterConv

/-!
C83 for NTSRQK: whole runs with states of exact time evolution.
-/
namespace QF

/-! ### the sparse matrix of a Hermitian operator is Hermitian -/

theorem chop_conj (z : ℂ) : chop ((starRingEnd ℂ) z) = (starRingEnd ℂ) (chop z) := by
  unfold chop
  rw [RCLike.norm_conj]
  by_cases h : ‖z‖ > 1e-16
  · rw [if_pos h, if_pos h]
  · rw [if_neg h, if_neg h, map_zero]

theorem inner_single_left {n I : ℕ} (hI : I < 2 ^ n) (ψ : St) : inner n (Pi.single I 1) ψ = ψ I := by
  unfold inner
  rw [Finset.sum_eq_single I]
  · simp
  · intro b _ hb; simp [Pi.single_eq_of_ne hb]
  · intro h; exact absurd (Finset.mem_range.2 hI) h

theorem pauli_entry_conj {n : ℕ} {c : Circuit} (hc : c.PauliString n) {I J : ℕ} (hI : I < 2 ^ n) (hJ : J < 2 ^ n) :
    (starRingEnd ℂ) (c.op (Pi.single J 1) I) = c.op (Pi.single I 1) J := by
  rw [← inner_single_left hI (c.op (Pi.single J 1)), ← inner_single_left hJ (c.op (Pi.single I 1)), ← inner_conj, QiteAlg.pauli_herm hc, Complex.conj_conj]

/-- C25: the sparse matrix of an operator of Pauli strings with real coefficients is Hermitian, in spite of the entries that are dropped -/
theorem C25_hermitian {n : ℕ} {A : QubitOperator} (hne : A ≠ []) (hA : ∀ t ∈ A, t.1.im = 0 ∧ t.2.PauliString n) {S : SMat} (h : A.sparseMatrix n = .ok S) (I J : ℕ) (hI : I < 2 ^ n)
    (hJ : J < 2 ^ n) : (starRingEnd ℂ) (S.get I J) = S.get J I := by
  have loop : ∀ (A : QubitOperator) (R S : SMat), R.OK (2 ^ n) → (∀ I J, chop (R.get I J) = R.get I J) → (∀ t ∈ A, t.1.im = 0 ∧ t.2.PauliString n) →
      (∀ I J, I < 2 ^ n → J < 2 ^ n → (starRingEnd ℂ) (R.get I J) = R.get J I) →
      A.foldlM (fun R t => (do
        let L ← t.2.sparseMatrix n
        pure (SMat.add R L t.1) : Except Exc SMat)) R = .ok S → ∀ I J, I < 2 ^ n → J < 2 ^ n → (starRingEnd ℂ) (S.get I J) = S.get J I := by
    intro A
    induction A with
    | nil => intro R S _ _ _ hR h; cases h; exact hR
    | cons t A ih =>
      intro R S hR hch hA hc h
      obtain ⟨ht, hP⟩ := hA t (by simp)
      obtain ⟨L, l1, l2, l3⟩ := pauliSparse_ok t.2 hP.fits hP.gates
      obtain ⟨a1, a2⟩ := add_ok hR l2 t.1 hch
      rw [List.foldlM_cons] at h
      simp only [l1, except_ok_bind, pure, Except.pure] at h
      refine ih (R.add L t.1) S a1 (fun I J => by rw [a2, chop_chop]) (fun t ht => hA t (by simp [ht])) ?_ h
      intro I J hI hJ
      have hr : (starRingEnd ℂ) t.1 = t.1 := Complex.conj_eq_iff_im.2 ht
      rw [a2, a2, ← chop_conj, map_add, map_mul, hc I J hI hJ, hr, l3 I J hI hJ, l3 J I hJ hI, pauli_entry_conj hP hI hJ]
  have h0 : ∀ I J, SMat.get [] I J = 0 := by intro I J; simp [SMat.get, SMat.row, SVec.get, amGet]
  unfold QubitOperator.sparseMatrix at h
  rw [if_neg (by simpa using hne)] at h
  exact loop A [] S (.nil _) (by intro I J; rw [h0]; simp [chop]) hA (by intro I J _ _; rw [h0, h0, map_zero]) h I J hI hJ

/-! ### the evolution with a Hermitian matrix keeps the norm -/

theorem matAct_local (n : ℕ) (G : NMat) (ψ : St) : toE n (matAct (2 ^ n) G ψ) = comp n (matAct (2 ^ n) G) (toE n ψ) := by
  rw [comp_apply]
  congr 1
  funext I
  show (if I < 2 ^ n then _ else 0) = if I < 2 ^ n then _ else 0
  by_cases h : I < 2 ^ n
  · rw [if_pos h, if_pos h]
    refine Finset.sum_congr rfl fun J hJ => ?_
    have : ofE n (toE n ψ) J = ψ J := by
      simp [ofE, toE, Finset.mem_range.1 hJ]
    rw [this]
  · rw [if_neg h, if_neg h]

theorem matAct_bd (n : ℕ) (G : NMat) : Bd n (matAct (2 ^ n) G) ‖comp n (matAct (2 ^ n) G)‖ := by
  intro ψ
  rw [nrm_eq, nrm_eq, matAct_local]
  exact ContinuousLinearMap.le_opNorm _ _

theorem matAct_herm {n : ℕ} {G : NMat} (h : ∀ I < 2 ^ n, ∀ J < 2 ^ n, (starRingEnd ℂ) (G I J) = G J I) (φ ψ : St) :
    inner n φ (matAct (2 ^ n) G ψ) = inner n (matAct (2 ^ n) G φ) ψ := by
  unfold inner
  have e1 : ∀ I ∈ Finset.range (2 ^ n), (starRingEnd ℂ) (φ I) * matAct (2 ^ n) G ψ I = ∑ J ∈ Finset.range (2 ^ n), (starRingEnd ℂ) (φ I) * (G I J * ψ J) := by
    intro I hI
    show _ * (if I < 2 ^ n then _ else 0) = _
    rw [if_pos (Finset.mem_range.1 hI), Finset.mul_sum]
  have e2 : ∀ J ∈ Finset.range (2 ^ n), (starRingEnd ℂ) (matAct (2 ^ n) G φ J) * ψ J = ∑ I ∈ Finset.range (2 ^ n), (starRingEnd ℂ) (φ I) * (G I J * ψ J) := by
    intro J hJ
    show (starRingEnd ℂ) (if J < 2 ^ n then _ else 0) * _ = _
    rw [if_pos (Finset.mem_range.1 hJ), map_sum, Finset.sum_mul]
    refine Finset.sum_congr rfl fun I hI => ?_
    rw [map_mul, h J (Finset.mem_range.1 hJ) I (Finset.mem_range.1 hI)]
    ring
  rw [Finset.sum_congr rfl e1, Finset.sum_congr rfl e2, Finset.sum_comm]

theorem expOn_norm {n : ℕ} {A : Op} {a : ℝ} (hA : Bd n A a) (ha : 0 ≤ a) (hs : AntiHerm n A) {Φ ψ : St} (h : ExpOn A Φ ψ) : inner n ψ ψ = inner n Φ Φ := by
  have e : toE n ψ = NormedSpace.exp (comp n A) (toE n Φ) := by
    ext i
    exact (h i).unique (hasSum_comp hA ha Φ i)
  let _ := NormedAlgebra.restrictScalars ℚ ℂ (HS n →L[ℂ] HS n)
  have hu := NormedSpace.exp_mem_unitary_of_mem_skewAdjoint hs.skew
  rw [← inner_toE, e, ← ContinuousLinearMap.adjoint_inner_right, ← ContinuousLinearMap.star_eq_adjoint,
    ← mul_apply_eq_comp, (Unitary.mem_iff.1 hu).1, ← inner_toE]
  rfl

theorem expOn_zero {A : Op} {Φ ψ : St} (h : ExpOn A Φ ψ) (hA : A = 0) : ψ = Φ := by
  subst hA
  funext I
  refine (h I).unique ?_
  have := hasSum_ite_eq (0 : ℕ) (Φ I)
  refine this.congr_fun fun k => ?_
  cases k with
  | zero => simp
  | succ k => simp [pow_succ]

/-- C83: NTSRQK.  As for SRQK (`C83_srqk`): with a Hamiltonian of Pauli strings with real coefficients on all qubits, at least two states and what scipy documents, the run succeeds
exactly when the target root is an index of the energies left; the energies are those of orthonormal states of the span of the evolved states, the ground-state energy is never
below the exact one and, unless a direction was dropped, never above the energy of the reference.  The evolved states have norm one.  With the default `diagonalize_each_step=True` only the target roots 0 and -1 are accepted. -/
theorem C83_ntsrqk {eig : EigOracle} (hE : DescEig eig) (expm : ExpmOracle) (hX : ExpmContract expm) (A : QkAlg) (hA : A.Ready) (hp : ∀ g ∈ A.uprep, ApiGate g) (hne : A.ham ≠ [])
    (hq : A.ham.numQubits = A.nqb) (h0 : 2 ≤ A.nstates) (target : ℤ) :
    ∃ (M : SMat) (S H : NMat) (ψ : ℕ → St) (rank : ℕ), A.ham.sparseMatrix A.nqb = .ok M ∧ A.ntsrqkMats expm = .ok (S, H) ∧
      rank = ((eig A.nstates S).1.filter fun z => open Classical in decide (1e-15 < z.re)).length ∧
      ψ 0 = A.uprep.op (Computer.init A.nqb).psi ∧
      (∀ m < A.nstates, ExpOn ((-Complex.I * ((m * A.dt / (A.nstates - 1) : ℝ) : ℂ)) • matAct (2 ^ A.nqb) M.get) (ψ 0) (ψ m) ∧ inner A.nqb (ψ m) (ψ m) = 1) ∧
      (-(rank : ℤ) ≤ target ∧ target < rank → ∃ R, A.ntsrqkRun expm eig true target false = .ok R ∧ (target = 0 ∨ target = -1 → A.ntsrqkRun expm eig true target true = .ok R) ∧
        QsdOk A.nqb A.nstates A.ham.op ψ rank target R ∧
        (rank = A.nstates → R.egs ≤ energy A.nqb A.ham.op (A.uprep.op (Computer.init A.nqb).psi))) ∧
      (¬(-(rank : ℤ) ≤ target ∧ target < rank) → A.ntsrqkRun expm eig true target false = .error .indexError) ∧
      (¬(target = 0 ∨ target = -1) → A.ntsrqkRun expm eig true target true = .error .indexError) := by
  obtain ⟨M, S, H, ψ, hM, _, e, hψ, hG⟩ := C77_ntsrqk expm hX A hA hne hq h0
  have z0 : ψ 0 = A.uprep.op (Computer.init A.nqb).psi := expOn_zero (hψ 0 (by omega)) (by simp)
  have hh : ∀ φ χ, inner A.nqb φ (matAct (2 ^ A.nqb) M.get χ) = inner A.nqb (matAct (2 ^ A.nqb) M.get φ) χ :=
    matAct_herm fun I hI J hJ => C25_hermitian hne hA.ham hM I J hI hJ
  have n0 : inner A.nqb (A.uprep.op (Computer.init A.nqb).psi) (A.uprep.op (Computer.init A.nqb).psi) = 1 := by
    rw [inner_circuit hA.prep.1 (fun g hg => C02_unitary (hp g hg)), init_psi]
    simp [inner]
  have n1 : ∀ m < A.nstates, inner A.nqb (ψ m) (ψ m) = 1 := by
    intro m hm
    rw [← n0]
    refine expOn_norm (a := ‖(-Complex.I * ((m * A.dt / (A.nstates - 1) : ℝ) : ℂ))‖ * ‖comp A.nqb (matAct (2 ^ A.nqb) M.get)‖) ?_ (by positivity) ?_ (hψ m hm)
    · intro χ
      rw [LinearMap.smul_apply, nrm_smul, mul_assoc]
      exact mul_le_mul_of_nonneg_left (matAct_bd _ _ χ) (norm_nonneg _)
    · intro φ χ
      rw [LinearMap.smul_apply, LinearMap.smul_apply, inner_smulR, inner_smulL, hh]
      simp
  have hGm : GramOf A.nqb A.nstates A.ham.op ψ (S, H).1 (S, H).2 := ⟨fun i hi j hj => (hG i hi j hj).1, fun i hi j hj => (hG i hi j hj).2⟩
  obtain ⟨r1, r2⟩ := C83_common_run hE (hermitian_of_real hA.ham) hGm n1 (by omega) target
  obtain ⟨r3, r4⟩ := C98_each_step hE (hermitian_of_real hA.ham) hGm n1 (by omega) target
  have hrun : ∀ each, A.ntsrqkRun expm eig true target each = qsdFull eig each A.nstates target (S, H) := by
    intro each
    unfold QkAlg.ntsrqkRun
    rw [if_neg (by simp), e, except_ok_bind]
  refine ⟨M, S, H, ψ, _, hM, e, rfl, z0, fun m hm => ⟨by rw [z0]; exact hψ m hm, n1 m hm⟩, fun ht => ?_, fun ht => ?_, fun ht => ?_⟩
  · obtain ⟨R, e1, hR⟩ := r1 ht
    refine ⟨R, by rw [hrun, qsdFull_false]; exact e1, fun h => by rw [hrun, r3 h]; exact e1, hR, fun hr => ?_⟩
    rw [← z0]; exact hR.below hr (by omega) (n1 0 (by omega))
  · rw [hrun, qsdFull_false]; exact r2 ht
  · rw [hrun]; exact r4 ht

/-- C83: `NTSRQK.run` refuses `fast=False`. -/
theorem C83_ntsrqk_slow (expm : ExpmOracle) (eig : EigOracle) (A : QkAlg) (target : ℤ) (each : Bool) : A.ntsrqkRun expm eig false target each = .error .valueError := by
  unfold QkAlg.ntsrqkRun
  rw [if_pos (by simp)]

/-- C83: the hypotheses are met by `exampleQk` -/
theorem C83_ntsrqk_example : exampleQk.Ready ∧ (∀ g ∈ exampleQk.uprep, ApiGate g) ∧ exampleQk.ham ≠ [] ∧ exampleQk.ham.numQubits = exampleQk.nqb ∧ 2 ≤ exampleQk.nstates :=
  ⟨exampleQk_ready, by simp [exampleQk], by simp [exampleQk], by decide, by decide⟩

end QF
