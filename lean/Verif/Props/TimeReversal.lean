import Verif.Props.KeptRank
import Verif.Props.QiteOddY
import Verif.Props.ResidualSq
/-!
C123: the sign of the time step.
-/
namespace QF

/-- exponentials of a string with an even number of Y at opposite times are complex conjugates -/
theorem conj_factor {n : ℕ} {c : Circuit} (hc : c.PauliString n) (he : Even c.numY) {z z' : ℂ} (hz : z' = (starRingEnd ℂ) z) {U V : Op} (hU : IsExp (z • c.op) U) (hV : IsExp (z' • c.op) V) (ψ : St) :
    V (conjSt ψ) = conjSt (U ψ) := by
  have hi : c.op * c.op = 1 := ipauli_sq (trotterTerm_of hc).1
  have e1 := hU.unique (isExp_invol hi _)
  have e2 := hV.unique (isExp_invol hi _)
  have hp := circuit_conj hc.gates ψ
  rw [he.neg_one_pow, one_smul] at hp
  rw [e1, e2, LinearMap.add_apply, LinearMap.add_apply, LinearMap.smul_apply, LinearMap.smul_apply, LinearMap.smul_apply, LinearMap.smul_apply, hp, hz, Complex.cosh_conj, Complex.sinh_conj]
  funext I
  simp [conjSt]

/-- first-order Trotter states at opposite times are complex conjugates -/
theorem conj_trotter {n : ℕ} {H : QubitOperator} (hH : ∀ t ∈ H, t.1.im = 0 ∧ t.2.PauliString n) (he : ∀ t ∈ H, Even t.2.numY) {N : ℤ} {τ τ' : ℝ} (hτ : τ' = -τ) {Φ Φ' ψ ψ' : St}
    (hΦ : Φ' = conjSt Φ) (h : TrotterState H N τ Φ ψ) (h' : TrotterState H N τ' Φ' ψ') : ψ' = conjSt ψ := by
  obtain ⟨Us, h1, rfl⟩ := h
  obtain ⟨Vs, h2, rfl⟩ := h'
  have one : ∀ χ, applyInOrder Vs (conjSt χ) = conjSt (applyInOrder Us χ) := by
    clear hΦ Φ Φ'
    induction h1 generalizing Vs with
    | nil => cases h2; intro χ; rfl
    | @cons t U H Us hU hUs ih =>
      cases h2 with
      | @cons _ V _ Vs hV hVs =>
        intro χ
        have e : V (conjSt χ) = conjSt (U χ) := by
          refine conj_factor (hH t (by simp)).2 (he t (by simp)) ?_ hU hV χ
          have ht : ((t.1.re : ℝ) : ℂ) = t.1 := Complex.ext rfl (by simp [(hH t (by simp)).1])
          rw [hτ, ← ht]
          simp
        show applyInOrder Vs (V (conjSt χ)) = conjSt (applyInOrder Us (U χ))
        rw [e]
        exact ih (fun t ht => hH t (by simp [ht])) (fun t ht => he t (by simp [ht])) Vs hVs (U χ)
  have pow : ∀ (k : ℕ) χ, (applyInOrder Vs ^ k) (conjSt χ) = conjSt ((applyInOrder Us ^ k) χ) := by
    intro k
    induction k with
    | zero => intro χ; rfl
    | succ k ih =>
      intro χ
      rw [pow_succ, pow_succ]
      show (applyInOrder Vs ^ k) (applyInOrder Vs (conjSt χ)) = conjSt ((applyInOrder Us ^ k) (applyInOrder Us χ))
      rw [one, ih]
  rw [hΦ, pow]

theorem conj_span (k : ℕ) (φ : ℕ → St) (c : ℕ → ℂ) : conjSt (spanState k φ c) = spanState k (fun p => conjSt (φ p)) fun p => (starRingEnd ℂ) (c p) := by
  funext I
  simp [conjSt, spanState, Finset.sum_apply]

theorem conj_conj_st (ψ : St) : conjSt (conjSt ψ) = ψ := by funext I; simp [conjSt]

/-- the eigenvectors above the threshold of the conjugate overlap matrix are the conjugates -/
theorem KeptVec.conj {n k : ℕ} {φ φ' : ℕ → St} {S S' : NMat} (hS : ∀ i < k, ∀ j < k, S i j = inner n (φ i) (φ j)) (hS' : ∀ i < k, ∀ j < k, S' i j = inner n (φ' i) (φ' j))
    (hu : ∀ p < k, φ' p = conjSt (φ p)) {v : ℕ → ℂ} (hv : KeptVec k S v) : KeptVec k S' fun p => (starRingEnd ℂ) (v p) := by
  obtain ⟨t, ht, he⟩ := hv
  refine ⟨t, ht, fun i hi => ?_⟩
  have := congrArg (starRingEnd ℂ) (he i hi)
  rw [map_sum, map_mul, Complex.conj_ofReal] at this
  rw [← this]
  refine Finset.sum_congr rfl fun p hp => ?_
  have hp := Finset.mem_range.1 hp
  rw [map_mul, hS i hi p hp, hS' i hi p hp, hu i hi, hu p hp, inner_conjSt]

/-- C123, for any states whose amplitudes are replaced by their complex conjugates -/
theorem C123_ritz {eig : EigOracle} (hE : DescEig eig) {n k : ℕ} {H : Op} (hR : RealOp H) (hH : ∀ φ ψ, inner n φ (H ψ) = inner n (H φ) ψ) {φ φ' : ℕ → St} {M M' : NMat × NMat}
    (hG : GramOf n k H φ M.1 M.2) (hG' : GramOf n k H φ' M'.1 M'.2) (hu : ∀ p < k, φ' p = conjSt (φ p))
    {t t' : ℤ} {R R' : QsdResult} (h : qsdRun eig k t M = .ok R) (h' : qsdRun eig k t' M' = .ok R') : R'.eigenvalues = R.eigenvalues := by
  obtain ⟨X, C, h1, h2, h3, hX, hKX⟩ := run_kept hE hH hG h
  obtain ⟨X', C', h1', h2', h3', hX', hKX'⟩ := run_kept hE hH hG' h'
  have hu' : ∀ p < k, φ p = conjSt (φ' p) := fun p hp => by rw [hu p hp, conj_conj_st]
  have sp : ∀ {α β : ℕ → St}, (∀ p < k, β p = conjSt (α p)) → ∀ v, conjSt (spanState k α v) = spanState k β fun p => (starRingEnd ℂ) (v p) := fun {α β} hab v => by
    rw [conj_span]
    unfold spanState
    exact Finset.sum_congr rfl fun p hp => by rw [hab p (Finset.mem_range.1 hp)]
  -- the first set of Ritz states, conjugated
  have hc : RitzPairs n R.eigenvalues.length H (fun l => conjSt (spanState k φ (X l))) R.eigenvalues fun i j => (starRingEnd ℂ) (C i j) := fun i hi j hj => by
    obtain ⟨a, b⟩ := h1 i hi j hj
    have e : ∀ j, spanState R.eigenvalues.length (fun l => conjSt (spanState k φ (X l))) (fun i => (starRingEnd ℂ) (C i j)) =
        conjSt (spanState R.eigenvalues.length (fun l => spanState k φ (X l)) (C · j)) := fun j => by rw [conj_span]
    rw [e, e, hR, inner_conjSt, inner_conjSt, a, b]
    refine ⟨by split_ifs <;> simp, ?_⟩
    split_ifs
    · rw [List.getD_eq_getElem _ _ hj]
      exact Complex.conj_eq_iff_im.2 (h3 _ (List.getElem_mem hj))
    · simp
  have := ritz_affine (a := 1) (c := 0) one_pos (H' := H) (by intro ψ; simp) hc h2 h3 h1' h2' h3' (fun l hl => by
      obtain ⟨a, ha⟩ := hKX _ ((hX' l hl).conj hG'.overlap hG.overlap hu')
      refine ⟨fun p => (starRingEnd ℂ) (a p), ?_⟩
      have := congrArg conjSt ha
      rw [sp hu, conj_span] at this
      rw [← this]
      simp)
    (fun l hl => by
      obtain ⟨a, ha⟩ := hKX' _ ((hX l hl).conj hG.overlap hG'.overlap hu)
      exact ⟨a, by rw [← ha]; exact sp hu _⟩)
  rw [this]
  conv_rhs => rw [← List.map_id R.eigenvalues]
  exact List.map_congr_left fun z _ => by simp

/-- the calculation with the opposite time step -/
noncomputable def QkAlg.reversed (A : QkAlg) : QkAlg := { A with dt := -A.dt }

/-- C123: SRQK with the opposite time step, for a Hamiltonian of strings with an even number of Y and a reference with real amplitudes -/
theorem C123_srqk {eig : EigOracle} (hE : DescEig eig) (A : QkAlg) (hA : A.Ready) (hp : ∀ g ∈ A.uprep, ApiGate g) (h0 : 1 ≤ A.nstates) (he : ∀ t ∈ A.ham, Even t.2.numY)
    (hΦ : conjSt (A.uprep.op (Computer.init A.nqb).psi) = A.uprep.op (Computer.init A.nqb).psi) (t : ℤ) : Follows id (A.srqkRun eig t) (A.reversed.srqkRun eig t) := by
  have hA' : A.reversed.Ready := ⟨hA.prep, hA.ham, hA.steps⟩
  obtain ⟨m, -, f⟩ := srqk_finds hE A hA hp h0
  obtain ⟨m', -, f'⟩ := srqk_finds hE A.reversed hA' hp h0
  refine f.follows f' (fun _ _ _ _ h h' => ?_) t
  obtain ⟨S1, H1, ψ, e, hψ, hM⟩ := C77_srqk A hA h0
  obtain ⟨S2, H2, ψ', e', hψ', hM'⟩ := C77_srqk A.reversed hA' h0
  unfold QkAlg.srqkRun at h h'
  rw [e, except_ok_bind] at h
  rw [e', except_ok_bind] at h'
  rw [List.map_id]
  exact C123_ritz hE (realOp_of_even fun t ht => ⟨(hA.ham t ht).1, (hA.ham t ht).2, he t ht⟩) (hermitian_of_real hA.ham) (φ := ψ) (φ' := ψ') (M := (S1, H1)) (M' := (S2, H2))
    ⟨fun i hi j hj => (hM i hi j hj).1, fun i hi j hj => (hM i hi j hj).2⟩
    ⟨fun i hi j hj => (hM' i hi j hj).1, fun i hi j hj => (hM' i hi j hj).2⟩
    (fun p _ => conj_trotter hA.ham he (by simp only [QkAlg.reversed]; ring) hΦ.symm (hψ p) (hψ' p)) h h'

/-- C123: MRSQK with the opposite time step, for a Hamiltonian of strings with an even number of Y -/
theorem C123_mrsqk {eig : EigOracle} (hE : DescEig eig) (A : QkAlg) (hA : A.Ready) (refs : List (List ℕ)) (hR : ∀ r ∈ refs, Occ r ∧ r.length = A.nqb ∧ 1 ∈ r)
    (hne : refs ≠ []) (h0 : 1 ≤ A.nstates) (he : ∀ t ∈ A.ham, Even t.2.numY) (t : ℤ) : Follows id (A.mrsqkRun eig refs t) (A.reversed.mrsqkRun eig refs t) := by
  have hA' : A.reversed.Ready := ⟨hA.prep, hA.ham, hA.steps⟩
  obtain ⟨m, -, f⟩ := mrsqk_finds hE A hA refs hR hne h0
  obtain ⟨m', -, f'⟩ := mrsqk_finds hE A.reversed hA' refs hR hne h0
  refine f.follows f' (fun _ _ _ _ h h' => ?_) t
  obtain ⟨S1, H1, ψ, φ, e, -, hψ, at1, hG, -, -⟩ := mrsqk_gram A hA refs hR hne h0
  obtain ⟨S2, H2, ψ', φ', e', -, hψ', at1', hG', -, -⟩ := mrsqk_gram A.reversed hA' refs hR hne h0
  unfold QkAlg.mrsqkRun at h h'
  rw [e, except_ok_bind] at h
  rw [e', except_ok_bind] at h'
  rw [List.map_id]
  refine C123_ritz hE (realOp_of_even fun t ht => ⟨(hA.ham t ht).1, (hA.ham t ht).2, he t ht⟩) (hermitian_of_real hA.ham) (M := (S1, H1)) (M' := (S2, H2)) hG
    (show GramOf A.nqb (refs.length * A.nstates) A.ham.op φ' S2 H2 from hG') (fun p hlt => ?_) h h'
  have h1 : p / A.nstates < refs.length := Nat.div_lt_of_lt_mul (by rw [mul_comm]; exact hlt)
  have h2 : p % A.nstates < A.nstates := Nat.mod_lt _ (by omega)
  have a1 := at1 (p / A.nstates) refs[p / A.nstates] (List.getElem?_eq_getElem h1) _ h2
  have a2 := at1' (p / A.nstates) refs[p / A.nstates] (List.getElem?_eq_getElem h1) _ h2
  rw [Nat.div_add_mod'] at a1
  have a2 : φ' (p / A.nstates * A.nstates + p % A.nstates) = _ := a2
  rw [Nat.div_add_mod'] at a2
  rw [a1, a2]
  exact conj_trotter hA.ham he (by simp only [QkAlg.reversed]; ring) (conjSt_single _).symm (hψ _ (List.getElem_mem h1) _) (hψ' _ (List.getElem_mem h1) _)

/-- C123, a concrete case of the hypotheses: the two-qubit system of C116 (whose Hamiltonian contains YY) with two states -/
theorem C123_example {eig : EigOracle} (hE : DescEig eig) : ({ sectorQk with nstates := 2 } : QkAlg).Ready ∧ (∀ t ∈ sectorQk.ham, Even t.2.numY) ∧ (∃ t ∈ sectorQk.ham, t.2.numY = 2) ∧
    ∃ R R', ({ sectorQk with nstates := 2 } : QkAlg).srqkRun eig 0 = .ok R ∧ ({ sectorQk with nstates := 2 } : QkAlg).reversed.srqkRun eig 0 = .ok R' ∧
      R'.eigenvalues = R.eigenvalues ∧ R'.egs = R.egs := by
  have hp : ∀ g ∈ sectorQk.uprep, ApiGate g := by
    intro g hg
    simp only [sectorQk, List.mem_cons, List.not_mem_nil, or_false] at hg
    rcases hg with rfl | rfl
    · exact .make (pauliGate_X 0).make
    · exact .make (pauliGate_X 1).make
  have he : ∀ t ∈ sectorQk.ham, Even t.2.numY := by
    intro t ht
    simp only [sectorQk, List.mem_cons, List.not_mem_nil, or_false] at ht
    rcases ht with rfl | rfl | rfl <;> decide
  obtain ⟨m, -, f⟩ := srqk_finds hE { sectorQk with nstates := 2 } (sectorQk_ready 2) hp (by decide)
  have h1 := f.one
  obtain ⟨R0, e0, -⟩ := f.root 0 (by omega) (by omega)
  have hΦ : conjSt (sectorQk.uprep.op (Computer.init 2).psi) = sectorQk.uprep.op (Computer.init 2).psi := by rw [sectorQk_ref, conjSt_single]
  refine ⟨sectorQk_ready 2, he, ⟨(1, [gY 0, gY 1]), by simp [sectorQk], by decide⟩, ?_⟩
  rcases C123_srqk hE { sectorQk with nstates := 2 } (sectorQk_ready 2) hp (by decide) he hΦ 0 with ⟨e, -⟩ | ⟨R, R', e, e', q, g, -⟩
  · rw [e0] at e; cases e
  · exact ⟨R, R', e, e', by rw [q, List.map_id], Complex.ofReal_injective (show (R'.egs : ℂ) = R.egs from g)⟩

end QF
