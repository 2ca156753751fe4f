import Verif.Props.QiteStep
import Verif.Lemmas.RealOp
import Verif.Props.Commutator
import Verif.Props.QiteExample

/-!
C107: for a Hamiltonian with real coefficients and strings with an even number of Y (in particular for every molecular Hamiltonian, C108)
the strings with an odd number of Y lose nothing: QITE with any pool of Pauli strings is QITE with those strings of the pool that
have an odd number of Y.
-/
namespace QF

/-- the amplitudes are real up to one common phase -/
def RealUpToPhase (ψ : St) : Prop := ∃ z : ℂ, ‖z‖ = 1 ∧ conjSt (z • ψ) = z • ψ

/-- the strings of `σ` with an odd number of Y -/
noncomputable def oddY (σ : List Circuit) : List Circuit := σ.filter fun c => decide (Odd c.numY)

theorem inner_conjSt (n : ℕ) (φ ψ : St) : inner n (conjSt φ) (conjSt ψ) = (starRingEnd ℂ) (inner n φ ψ) := by
  simp [inner, conjSt, map_sum]

theorem inner_phase (n : ℕ) {z : ℂ} (hz : ‖z‖ = 1) (φ ψ : St) : inner n (z • φ) (z • ψ) = inner n φ ψ := by
  rw [inner_smul_left', inner_smul_right, ← mul_assoc, mul_comm _ z, Complex.mul_conj, Complex.normSq_eq_norm_sq, hz]; simp

/-- the matrix element of a string between real states is real or imaginary -/
theorem inner_string_real {n : ℕ} {c : Circuit} (hc : c.PauliString n) {φ ψ : St} (hφ : conjSt φ = φ) (hψ : conjSt ψ = ψ) :
    (starRingEnd ℂ) (inner n φ (c.op ψ)) = (-1) ^ c.numY * inner n φ (c.op ψ) := by
  rw [← inner_conjSt, hφ]
  have := circuit_conj hc.gates ψ
  rw [hψ] at this
  have e : conjSt (c.op ψ) = (-1 : ℂ) ^ c.numY • c.op ψ := by
    conv_rhs => rw [this]
    rw [smul_smul, ← mul_pow]; simp
  rw [e, inner_smul_right]

theorem even_im_zero {n : ℕ} {c : Circuit} (hc : c.PauliString n) (he : ¬ Odd c.numY) {φ ψ : St} (hφ : conjSt φ = φ) (hψ : conjSt ψ = ψ) :
    (inner n φ (c.op ψ)).im = 0 := by
  have := inner_string_real hc hφ hψ
  rw [(Nat.not_odd_iff_even.1 he).neg_one_pow, one_mul] at this
  exact Complex.conj_eq_iff_im.1 this

/-- C107: in a state that is real up to a phase the right-hand side of every string with an even number of Y is zero -/
theorem C107_rhs_zero {n : ℕ} {H : Op} (hH : RealOp H) (db : ℝ) {ψ : St} (hψ : RealUpToPhase ψ) {c : Circuit} (hc : c.PauliString n) (he : ¬ Odd c.numY) :
    rhsElem n H db ψ c = 0 := by
  obtain ⟨z, hz, hr⟩ := hψ
  unfold rhsElem
  rw [← inner_phase n hz, ← map_smul, ← map_smul, even_im_zero hc he hr (by rw [← hH, hr]), zero_div]

namespace QiteAlg

/-- C107: then the strings that enter the linear system are the same for the full pool and for the odd strings -/
theorem C107_chosen {A : QiteAlg} (hs : A.sparseSb = true) (hb : 0 ≤ A.bThresh) (hH : RealOp A.ham.op) {σ : List Circuit} (hσ : ∀ c ∈ σ, c.PauliString A.nqb)
    {ψ : St} (hψ : RealUpToPhase ψ) : A.chosen (oddY σ) ψ = A.chosen σ ψ ∧ ∀ c ∈ A.chosen σ ψ, Odd c.numY := by
  have h0 : ∀ c ∈ σ, ¬ Odd c.numY → ¬ A.bThresh < |rhsElem A.nqb A.ham.op A.db ψ c| := by
    intro c hc ho
    rw [C107_rhs_zero hH A.db hψ (hσ c hc) ho, abs_zero]; exact not_lt.2 hb
  unfold chosen oddY
  rw [if_pos hs, if_pos hs]
  by_cases hE : 1 - 2 * A.db * energy A.nqb A.ham.op ψ ≤ 0
  · rw [if_pos hE, if_pos hE]; exact ⟨rfl, by simp⟩
  · rw [if_neg hE, if_neg hE, List.filter_filter]
    refine ⟨List.filter_congr fun c hc => ?_, fun c hc => ?_⟩
    · by_cases ho : Odd c.numY
      · simp [ho]
      · have := h0 c hc ho
        simp [ho, this]
    · obtain ⟨h1, h2⟩ := List.mem_filter.1 hc
      by_contra ho
      exact h0 c h1 ho (by simpa using h2)

theorem realOp_npow {U : Op} (h : RealOp U) (k : ℕ) : RealOp (U ^ k) := by
  induction k with
  | zero => rw [pow_zero]; exact RealOp.one
  | succ k ih => rw [pow_succ]; exact ih.mul h

/-- `exp(-iθσ)` is real for a string with an odd number of Y -/
theorem realOp_expOdd {n : ℕ} {c : Circuit} (hc : c.PauliString n) (ho : Odd c.numY) (θ : ℝ) {U : Op} (hU : IsExp ((-Complex.I * θ) • c.op) U) : RealOp U := by
  have hi : c.op * c.op = 1 := ipauli_sq (trotterTerm_of hc).1
  have e := hU.unique (isExp_invol hi _)
  have e1 : Complex.cosh (-Complex.I * θ) = ((Real.cos θ : ℝ) : ℂ) := by
    rw [show -Complex.I * (θ : ℂ) = ((-θ : ℝ) : ℂ) * Complex.I by push_cast; ring, Complex.cosh_mul_I, ← Complex.ofReal_cos, Real.cos_neg]
  have e2 : Complex.sinh (-Complex.I * θ) = Complex.I * ((-Real.sin θ : ℝ) : ℂ) := by
    rw [show -Complex.I * (θ : ℂ) = ((-θ : ℝ) : ℂ) * Complex.I by push_cast; ring, Complex.sinh_mul_I, ← Complex.ofReal_sin, Real.sin_neg]; ring
  rw [e, e1, e2]
  refine (RealOp.one.smul (by simp)).add ?_
  intro ψ
  have := circuit_conj hc.gates ψ
  rw [ho.neg_one_pow] at this
  rw [LinearMap.smul_apply, LinearMap.smul_apply, this]
  funext I
  simp [conjSt]
  left; rw [← Complex.ofReal_sin, Complex.conj_ofReal]

/-- C107: a step of QITE leads from a state that is real up to a phase to such a state -/
theorem C107_step_real {A : QiteAlg} (hs : A.sparseSb = true) (hb : 0 ≤ A.bThresh) (hH : RealOp A.ham.op) {σ : List Circuit} (hσ : ∀ c ∈ σ, c.PauliString A.nqb)
    {ψ χ : St} {ph : ℂ} (hph : ‖ph‖ = 1) {x : List ℝ} (hψ : RealUpToPhase ψ) (h : IsStep A σ ψ (ph • χ) x) : RealUpToPhase χ := by
  obtain ⟨-, ho⟩ := C107_chosen hs hb hH hσ hψ
  obtain ⟨Us, h1, h2⟩ := h.evolved
  obtain ⟨z, hz, hr⟩ := hψ
  have hU : ∀ U ∈ Us, RealOp U := by
    intro U hU
    obtain ⟨t, ht, hE⟩ := forall₂_mem_right h1 hU
    unfold kept at ht
    obtain ⟨p, hp, rfl⟩ := List.mem_map.1 ht
    have hm := (List.of_mem_zip (List.mem_filter.1 hp).1).2
    refine realOp_expOdd (hσ _ (sparse_sub _ hm)) (ho _ hm) (A.db * p.1 / (A.trotterNumber : ℝ)) ?_
    convert! hE using 2
    push_cast; ring
  have hR := realOp_npow (RealOp.applyInOrder hU) A.trotterNumber.toNat
  refine ⟨z * ph, by rw [norm_mul, hz, hph, one_mul], ?_⟩
  rw [mul_smul, h2, ← map_smul, ← hR, hr]

/-! ### the program -/

/-- what a step does with the strings `C` of the linear system -/
private noncomputable def core (ls : LstsqOracle) (par : Option Schedule) (A : QiteAlg) (C : List Circuit) (st : QiteState) (m : ℕ) : Except Exc QiteState := do
  let S ← A.gram st.qc (C.map fun c => [(1, c)])
  let x := ls C.length S (C.map (rhsElem A.nqb A.ham.op A.db st.qc.psi))
  let T : QubitOperator := ((List.zip x C).filter fun p => open Classical in decide (A.xThresh < |p.1|)).map fun p => (-Complex.I * A.db * p.1, p.2)
  let (U, ph) ← trotterize T 1 A.trotterNumber
  let q ← st.qc.applyCircuit U
  let (v, q) ← q.directOpExpVal par A.ham
  pure { st with uqite := st.uqite.addCircuit U, qc := q, ekb := st.ekb ++ [v.re], phase := st.phase * ph, nParams := st.nParams + T.length, nCnot := st.nCnot + Circuit.getNumCnots U, nMeas := m }

private theorem step_core {A : QiteAlg} (hA : A.Ready) {ls : LstsqOracle} (hls : IsLstsq ls) (par : Option Schedule)
    {σ : List Circuit} (hσ : ∀ c ∈ σ, c.PauliString A.nqb) {st : QiteState} (hq : st.qc.WF) (hn : st.qc.nqubit = A.nqb)
    (hE : st.ekb.getLast? = some (energy A.nqb A.ham.op st.qc.psi)) (hs : A.sparseSb = true) :
    A.step ls par (poolOf σ) st = core ls par A (A.chosen σ st.qc.psi) st
      (st.nMeas + A.ham.length * σ.length + (A.chosen σ st.qc.psi).length * ((A.chosen σ st.qc.psi).length + 1) / 2) := by
  set ψ := st.qc.psi with hψ
  have eb := buildB_ok hA hq hn σ hσ
  obtain ⟨Z, z1, z2, z3⟩ := selected_ok (A := A) (σ := σ) (ψ := ψ) (.inr (.inl hs))
  have hk : Z.length = (A.chosen σ ψ).length := by rw [← z2, List.length_map]
  unfold step
  rw [hE]
  simp only [Option.elim_some, pure, Except.pure, except_ok_bind]
  rw [eb, except_ok_bind, z3, except_ok_bind]
  rw [mapM_ok _ (fun p : ℕ × ℝ => ((1 : ℂ), ([((1 : ℂ), σ.getD p.1 [])] : QubitOperator))) _ (fun p hp => by
    obtain ⟨z, hz, rfl⟩ := List.mem_map.1 hp
    have : (poolOf σ)[z.2]? = some (1, [(1, z.1)]) := by unfold poolOf; rw [List.getElem?_map, z1 z hz]; rfl
    rw [this]
    simp only [Option.elim_some]
    rw [List.getD_eq_getElem?_getD, z1 z hz]; rfl), except_ok_bind, List.map_map, List.map_map]
  have ho : Z.map ((Prod.snd ∘ fun p : ℕ × ℝ => ((1 : ℂ), ([((1 : ℂ), σ.getD p.1 [])] : QubitOperator))) ∘ fun p => (p.2, rhsElem A.nqb A.ham.op A.db ψ p.1)) =
      (A.chosen σ ψ).map fun c => [(1, c)] := by
    rw [← z2, List.map_map]
    refine List.map_congr_left fun z hz => ?_
    simp only [Function.comp]
    rw [List.getD_eq_getElem?_getD, z1 z hz]; rfl
  have hb : (Z.map fun p => (p.2, rhsElem A.nqb A.ham.op A.db ψ p.1)).map Prod.snd = (A.chosen σ ψ).map (rhsElem A.nqb A.ham.op A.db ψ) := by
    rw [← z2, List.map_map, List.map_map]; rfl
  have hi : (Z.map fun p => (p.2, rhsElem A.nqb A.ham.op A.db ψ p.1)).map Prod.fst = Z.map Prod.snd := by
    rw [List.map_map]; rfl
  rw [ho, hb, hi, List.length_map, hk]
  unfold core
  have hlen : (poolOf σ).length = σ.length := by unfold poolOf; rw [List.length_map]
  rw [hlen]
  refine bind_congr fun S => ?_
  have x1 := (hls _ S ((A.chosen σ ψ).map (rhsElem A.nqb A.ham.op A.db ψ)) (List.length_map _)).1
  have eA := buildA_ok (A := A) Z z1 _ (x1.trans hk.symm)
  rw [z2] at eA
  rw [eA, except_ok_bind]
  rfl

/-- the contents of the object after a step depend on the pool only through the strings of the linear system; the number of measurements also through the
size of the pool -/
theorem step_same {A : QiteAlg} (hA : A.Ready) {ls : LstsqOracle} (hls : IsLstsq ls) (par : Option Schedule)
    {σ σ' : List Circuit} (hσ : ∀ c ∈ σ, c.PauliString A.nqb) (hσ' : ∀ c ∈ σ', c.PauliString A.nqb) {st s : QiteState} (hq : st.qc.WF) (hn : st.qc.nqubit = A.nqb)
    (hE : st.ekb.getLast? = some (energy A.nqb A.ham.op st.qc.psi)) (hs : A.sparseSb = true) (hc : A.chosen σ' st.qc.psi = A.chosen σ st.qc.psi)
    (m : ℕ) (h : A.step ls par (poolOf σ) st = .ok s) :
    ∃ d, s.nMeas = st.nMeas + A.ham.length * σ.length + d ∧
      A.step ls par (poolOf σ') { st with nMeas := m } = .ok { s with nMeas := m + A.ham.length * σ'.length + d } := by
  rw [step_core hA hls par hσ hq hn hE hs] at h
  have e := step_core hA hls par hσ' (st := { st with nMeas := m }) hq hn hE hs
  refine ⟨(A.chosen σ st.qc.psi).length * ((A.chosen σ st.qc.psi).length + 1) / 2, ?_, ?_⟩
  · unfold core at h
    obtain ⟨S, -, h⟩ := bindOk h
    obtain ⟨⟨U, ph⟩, -, h⟩ := bindOk h
    obtain ⟨q, -, h⟩ := bindOk h
    obtain ⟨⟨v, q'⟩, -, h⟩ := bindOk h
    rw [← Except.ok.inj h]
  · rw [e]
    simp only
    rw [hc]
    unfold core at h ⊢
    obtain ⟨S, e1, h⟩ := bindOk h
    obtain ⟨⟨U, ph⟩, e2, h⟩ := bindOk h
    obtain ⟨q, e3, h⟩ := bindOk h
    obtain ⟨⟨v, q'⟩, e4, h⟩ := bindOk h
    simp only [e1, e2, e3, e4, except_ok_bind]
    rw [← Except.ok.inj h]; rfl

theorem loopStep_same {A : QiteAlg} (hA : A.Ready) {ls : LstsqOracle} (hls : IsLstsq ls) (par : Option Schedule)
    {σ σ' : List Circuit} (hσ : ∀ c ∈ σ, c.PauliString A.nqb) (hσ' : ∀ c ∈ σ', c.PauliString A.nqb) {st s : QiteState} (hq : st.qc.WF) (hn : st.qc.nqubit = A.nqb)
    (hE : st.ekb.getLast? = some (energy A.nqb A.ham.op st.qc.psi)) (hs : A.sparseSb = true) (hc : A.chosen σ' st.qc.psi = A.chosen σ st.qc.psi)
    (m k : ℕ) (h : A.loopStep ls par (poolOf σ) st k = .ok s) :
    ∃ d, s.nMeas = st.nMeas + A.ham.length * σ.length + d ∧
      A.loopStep ls par (poolOf σ') { st with nMeas := m } k = .ok { s with nMeas := m + A.ham.length * σ'.length + d } := by
  unfold loopStep at h ⊢
  obtain ⟨s1, e1, h⟩ := bindOk h
  obtain ⟨d, d1, d2⟩ := step_same hA hls par hσ hσ' hq hn hE hs hc m e1
  rw [d2, except_ok_bind]
  refine ⟨d, ?_⟩
  by_cases hl : A.doLanczos = true
  · rw [if_pos hl] at h ⊢
    by_cases h0 : A.lanczosGap = 0
    · rw [if_pos h0] at h; exact absurd h (by simp)
    · rw [if_neg h0] at h ⊢
      by_cases hk : (k : ℤ) % A.lanczosGap = 0
      · rw [if_pos hk] at h ⊢
        unfold keep at h ⊢
        obtain ⟨p, e2, h⟩ := bindOk h
        have e2' : ((Computer.init A.nqb).setCoeffVec ({ s1 with nMeas := m + A.ham.length * σ'.length + d } : QiteState).qc.coeff).applyOperator A.ham = .ok p := e2
        rw [e2', except_ok_bind, ← Except.ok.inj h]
        exact ⟨d1, rfl⟩
      · rw [if_neg hk] at h ⊢
        rw [← Except.ok.inj h]
        exact ⟨d1, rfl⟩
  · rw [if_neg hl] at h ⊢
    rw [← Except.ok.inj h]
    exact ⟨d1, rfl⟩

/-- the reference prepared with X and Z gates, as for a Hartree-Fock state, is real -/
theorem real_reference {A : QiteAlg} (h : ∀ g ∈ A.uprep, PauliGate g ∧ g.label ≠ "Y") : RealUpToPhase A.reference := by
  refine ⟨1, by simp, ?_⟩
  rw [one_smul]
  unfold reference
  have h0 : conjSt (Computer.init A.nqb).psi = (Computer.init A.nqb).psi := by
    rw [init_psi]; funext I; simp only [conjSt]; split_ifs <;> simp
  have hY : A.uprep.numY = 0 := by
    unfold Circuit.numY
    rw [List.countP_eq_zero]
    intro g hg; simpa using (h g hg).2
  have := circuit_conj (fun g hg => (h g hg).1) (c := A.uprep) (Computer.init A.nqb).psi
  rw [h0, hY, pow_zero, one_smul] at this
  exact this.symm

/-- C107: in every run the states are real up to a phase -/
theorem C107_real {A : QiteAlg} (hs : A.sparseSb = true) (hb : 0 ≤ A.bThresh) (hH : RealOp A.ham.op) {σ : List Circuit} (hσ : ∀ c ∈ σ, c.PauliString A.nqb)
    (hR : RealUpToPhase A.reference) {K : ℕ} {st : QiteState} {ψ : ℕ → St} {x : ℕ → List ℝ} {ph : ℕ → ℂ} (h : A.Trajectory σ K st ψ x ph) :
    ∀ k ≤ K, RealUpToPhase (ψ k) := by
  intro k
  induction k with
  | zero => intro _; rw [h.start]; exact hR
  | succ k ih =>
    intro hk
    obtain ⟨h1, h2⟩ := h.step k (by omega)
    exact C107_step_real hs hb hH hσ h2 (ih (by omega)) h1

/-- C107: `evolve` with the full pool and with its strings with an odd number of Y: the same circuit, the same energies, the same parameters, CNOT gates, Lanczos vectors, phase and
state; only the number of measurements is smaller, by the number of terms of the Hamiltonian times the number of dropped strings, in each step. -/
theorem C107_evolve {A : QiteAlg} (hA : A.Ready) {ls : LstsqOracle} (hls : IsLstsq ls) {par : Option Schedule} (hp : A.GoodBuild par) (hdb : A.db ≠ 0)
    {σ : List Circuit} (hσ : ∀ c ∈ σ, c.PauliString A.nqb) (hs : A.sparseSb = true) (hb : 0 ≤ A.bThresh) (hH : ∀ t ∈ A.ham, Even t.2.numY)
    (hR : RealUpToPhase A.reference) (hg : A.doLanczos = true → A.lanczosGap ≠ 0) (nb : ℤ) :
    ∃ st m, A.evolve ls par (poolOf σ) (energy A.nqb A.ham.op A.reference) nb = .ok st ∧
      A.evolve ls par (poolOf (oddY σ)) (energy A.nqb A.ham.op A.reference) nb = .ok { st with nMeas := m } ∧
      st.nMeas = m + (nb - 1).toNat * (A.ham.length * (σ.length - (oddY σ).length)) ∧ (oddY σ).length ≤ σ.length := by
  have hH' : RealOp A.ham.op := realOp_of_even fun t ht => ⟨(hA.ham t ht).1, (hA.ham t ht).2, hH t ht⟩
  have ho : ∀ c ∈ oddY σ, c.PauliString A.nqb := fun c hc => hσ c (List.mem_filter.1 hc).1
  have hle : (oddY σ).length ≤ σ.length := List.length_filter_le _ _
  obtain ⟨q, e, -, -, -, -, st0, e0, t0⟩ := trajectory_zero hA σ
  have key : ∀ K : ℕ, ∃ st m ψ x ph, (List.range' 1 K).foldlM (A.loopStep ls par (poolOf σ)) st0 = .ok st ∧ A.Trajectory σ K st ψ x ph ∧
      (List.range' 1 K).foldlM (A.loopStep ls par (poolOf (oddY σ))) st0 = .ok { st with nMeas := m } ∧
      st.nMeas = m + K * (A.ham.length * (σ.length - (oddY σ).length)) := by
    intro K
    induction K with
    | zero => exact ⟨st0, st0.nMeas, _, _, _, rfl, t0, rfl, by simp⟩
    | succ K ih =>
      obtain ⟨st, m, ψ, x, ph, e1, h1, e1', h1'⟩ := ih
      obtain ⟨st', ψ', x', ph', e2, h2⟩ := trajectory_succ hA hls hp hdb hσ (.inl hs) hg h1
      have hreal := C107_real hs hb hH' hσ hR h1 K le_rfl
      rw [← h1.current] at hreal
      obtain ⟨d, d1, d2⟩ := loopStep_same hA hls par hσ ho h1.wf.1 h1.wf.2
        (by rw [h1.ekb, List.range_succ, List.map_append, List.map_singleton, List.getLast?_append]; simp [h1.current]) hs (C107_chosen hs hb hH' hσ hreal).1 m (K + 1) e2
      refine ⟨st', m + A.ham.length * (oddY σ).length + d, ψ', x', ph', ?_, h2, ?_, ?_⟩
      · rw [List.range'_1_concat, List.foldlM_append, e1, except_ok_bind, List.foldlM_cons, add_comm 1 K, e2]; rfl
      · rw [List.range'_1_concat, List.foldlM_append, e1', except_ok_bind, List.foldlM_cons, add_comm 1 K, d2]; rfl
      · rw [d1, h1']
        obtain ⟨j, hj⟩ := Nat.exists_eq_add_of_le hle
        rw [hj, Nat.add_sub_cancel_left]; ring
  obtain ⟨st, m, ψ, x, ph, e1, h1, e2, h2⟩ := key (nb - 1).toNat
  have fin : ∀ (τ : List Circuit) (s : QiteState), (List.range' 1 (nb - 1).toNat).foldlM (A.loopStep ls par (poolOf τ)) st0 = .ok s →
      A.evolve ls par (poolOf τ) (energy A.nqb A.ham.op A.reference) nb = .ok s := by
    intro τ s hs
    unfold evolve
    have e0 := e0
    rw [addCircuit_eq, List.nil_append] at *
    show (Computer.init A.nqb).applyCircuit A.uprep >>= _ = _
    rw [e, except_ok_bind]
    simp only at e0 ⊢
    by_cases hl : A.doLanczos = true
    · rw [if_pos hl] at e0 ⊢
      rw [e0, except_ok_bind]; exact hs
    · rw [if_neg hl] at e0 ⊢
      rw [e0, except_ok_bind]; exact hs
  exact ⟨st, m, fin _ _ e1, fin _ _ e2, h2, hle⟩

/-! ### without the selection of strings -/

private theorem comb_split {n : ℕ} {ψ : St} (hψ : conjSt ψ = ψ) (σ : List Circuit) : (∀ c ∈ σ, c.PauliString n) → ∀ y : List ℝ, y.length = σ.length →
    ∃ y' : List ℝ, ∃ E : St, y'.length = (oddY σ).length ∧ pauliComb σ y ψ = pauliComb (oddY σ) y' ψ + E ∧ conjSt E = E ∧
      conjSt (pauliComb (oddY σ) y' ψ) = -pauliComb (oddY σ) y' ψ := by
  induction σ with
  | nil => intro _ y hy; exact ⟨[], 0, rfl, by simp [pauliComb, oddY], by funext I; simp [conjSt], by funext I; simp [pauliComb, oddY, conjSt]⟩
  | cons c σ ih =>
    intro hσ y hy
    cases y with
    | nil => simp at hy
    | cons a y =>
      obtain ⟨y', E, h1, h2, h3, h4⟩ := ih (fun c hc => hσ c (by simp [hc])) y (by simpa using hy)
      have hc := circuit_conj (hσ c (by simp)).gates ψ
      rw [hψ] at hc
      have e1 : pauliComb (c :: σ) (a :: y) ψ = ((a : ℝ) : ℂ) • c.op ψ + pauliComb σ y ψ := by simp [pauliComb]
      have cadd : ∀ u v : St, conjSt (u + v) = conjSt u + conjSt v := fun u v => by funext I; simp [conjSt]
      have csm : ∀ (r : ℝ) (u : St), conjSt ((r : ℂ) • u) = (r : ℂ) • conjSt u := fun r u => by funext I; simp [conjSt]
      by_cases ho : Odd c.numY
      · rw [ho.neg_one_pow] at hc
        have hc' : conjSt (c.op ψ) = -c.op ψ := by
          conv_rhs => rw [hc]
          module
        have e2 : oddY (c :: σ) = c :: oddY σ := by unfold oddY; rw [List.filter_cons_of_pos (by simpa using ho)]
        have e3 : pauliComb (c :: oddY σ) (a :: y') ψ = ((a : ℝ) : ℂ) • c.op ψ + pauliComb (oddY σ) y' ψ := by simp [pauliComb]
        refine ⟨a :: y', E, by rw [e2]; simp [h1], ?_, h3, ?_⟩
        · rw [e1, e2, e3, h2]; module
        · rw [e2, e3, cadd, csm, h4, hc']; module
      · rw [(Nat.not_odd_iff_even.1 ho).neg_one_pow, one_smul] at hc
        have e2 : oddY (c :: σ) = oddY σ := by unfold oddY; rw [List.filter_cons_of_neg (by simpa using ho)]
        refine ⟨y', ((a : ℝ) : ℂ) • c.op ψ + E, by rw [e2]; exact h1, ?_, ?_, by rw [e2]; exact h4⟩
        · rw [e1, e2, h2]; module
        · rw [cadd, csm, h3, ← hc]

/-- C107, also without the selection of strings: in a state that is real up to a phase no coefficients of the full pool give a step nearer to the imaginary-time step than the
best coefficients of the strings with an odd number of Y -/
theorem C107_nearest {n : ℕ} {H : Op} (hH : RealOp H) (db : ℝ) {σ : List Circuit} (hσ : ∀ c ∈ σ, c.PauliString n) {ψ : St} (hψ : RealUpToPhase ψ) {x : List ℝ}
    (hx : NearestStep n H db (oddY σ) ψ x) (y : List ℝ) (hy : y.length = σ.length) :
    nrm n (imagStep n H db ψ - (ψ - (Complex.I * db) • pauliComb (oddY σ) x ψ)) ≤ nrm n (imagStep n H db ψ - (ψ - (Complex.I * db) • pauliComb σ y ψ)) := by
  obtain ⟨z, hz, hr⟩ := hψ
  obtain ⟨y', E, h1, h2, h3, h4⟩ := comb_split hr σ hσ y hy
  refine (hx.2 y' h1).trans ?_
  have hcomb : ∀ (τ : List Circuit) (w : List ℝ), pauliComb τ w (z • ψ) = z • pauliComb τ w ψ := by
    intro τ
    induction τ with
    | nil => intro w; simp [pauliComb]
    | cons c τ ih =>
      intro w
      cases w with
      | nil => simp [pauliComb]
      | cons a w =>
        have e : ∀ φ, pauliComb (c :: τ) (a :: w) φ = ((a : ℝ) : ℂ) • c.op φ + pauliComb τ w φ := fun φ => by simp [pauliComb]
        rw [e, e, ih w, map_smul]; module
  have him : imagStep n H db (z • ψ) = z • imagStep n H db ψ := by
    unfold imagStep
    rw [energy_phase n H hz, map_smul]; module
  have hph : ∀ φ : St, nrm n φ = nrm n (z • φ) := fun φ => by rw [nrm_smul, hz, one_mul]
  have hreal : conjSt (imagStep n H db (z • ψ)) = imagStep n H db (z • ψ) := by
    have hHr : conjSt (H (z • ψ)) = H (z • ψ) := by rw [← hH, hr]
    have a1 := fun I => congrFun hr I
    have a2 := fun I => congrFun hHr I
    funext I
    unfold imagStep
    simp only [conjSt, Pi.smul_apply, Pi.sub_apply, smul_eq_mul] at a1 a2 ⊢
    rw [map_mul, Complex.conj_ofReal, map_sub, map_mul _ (db : ℂ), Complex.conj_ofReal, a1 I, a2 I]
  rw [hph, hph (imagStep n H db ψ - (ψ - (Complex.I * db) • pauliComb σ y ψ))]
  have e1 : z • (imagStep n H db ψ - (ψ - (Complex.I * db) • pauliComb (oddY σ) y' ψ)) =
      imagStep n H db (z • ψ) - (z • ψ - (Complex.I * db) • pauliComb (oddY σ) y' (z • ψ)) := by rw [him, hcomb]; module
  have e2 : z • (imagStep n H db ψ - (ψ - (Complex.I * db) • pauliComb σ y ψ)) =
      (imagStep n H db (z • ψ) - (z • ψ - (Complex.I * db) • pauliComb (oddY σ) y' (z • ψ))) + (Complex.I * db) • E := by
    rw [show pauliComb (oddY σ) y' (z • ψ) = pauliComb σ y (z • ψ) - E by rw [h2]; module, him, hcomb]; module
  rw [e1, e2]
  refine (pow_le_pow_iff_left₀ (nrm_nonneg _ _) (nrm_nonneg _ _) two_ne_zero).1 ?_
  rw [nrm_sq, nrm_sq]
  refine Finset.sum_le_sum fun I _ => ?_
  have a1 := congrFun hreal I
  have a2 := congrFun hr I
  have a3 := congrFun h4 I
  have a4 := congrFun h3 I
  simp only [conjSt, Pi.neg_apply] at a1 a2 a3 a4
  simp only [Pi.sub_apply, Pi.add_apply, Pi.smul_apply, smul_eq_mul] at a1 a2 a3 a4 ⊢
  generalize imagStep n H db (z • ψ) I = u at *
  generalize z * ψ I = v at *
  generalize pauliComb (oddY σ) y' (z • ψ) I = w at *
  generalize E I = r at *
  have b1 := Complex.conj_eq_iff_im.1 a1
  have b2 := Complex.conj_eq_iff_im.1 a2
  have b4 := Complex.conj_eq_iff_im.1 a4
  have b3 : w.re = 0 := by
    have := congrArg Complex.re a3
    simp only [Complex.conj_re, Complex.neg_re] at this; linarith
  rw [← Complex.normSq_eq_norm_sq, ← Complex.normSq_eq_norm_sq, Complex.normSq_apply, Complex.normSq_apply]
  simp only [Complex.sub_re, Complex.sub_im, Complex.add_re, Complex.add_im, Complex.mul_re, Complex.mul_im, Complex.I_re, Complex.I_im, Complex.ofReal_re, Complex.ofReal_im, b1, b2, b3, b4]
  nlinarith [sq_nonneg (db * r.re)]

/-! ### the two pools of QITE -/

/-- C107: the pool 'cqoy' consists of the strings of the pool 'complete_qubit' with an odd number of Y, in the same order -/
theorem C107_pools (N : SQOpPool.NextPerm) (o : SQOperator.DescSort) (so : QubitOperator.SortOracle) (fuel : ℕ) (A : QiteAlg) (hn : 0 < A.nqb) (h6 : A.nqb ≤ 6) :
    ∃ σ, (∀ c ∈ σ, c.PauliString A.nqb) ∧ σ.length = 4 ^ A.nqb ∧ (∀ c : Circuit, c.Canonical → (∀ g ∈ c, g.target < A.nqb) → c ∈ σ) ∧
      buildExpansionPool N o so fuel { A with expansionType := "complete_qubit" } = .ok (poolOf σ) ∧
      buildExpansionPool N o so fuel { A with expansionType := "cqoy" } = .ok (poolOf (oddY σ)) := by
  refine ⟨(List.range (4 ^ A.nqb)).map (QubitOpPool.circ A.nqb), ?_, by simp, ?_, ?_, ?_⟩
  · intro c hc
    obtain ⟨I, -, rfl⟩ := List.mem_map.1 hc
    obtain ⟨h1, h2⟩ := QubitOpPool.circ_spec A.nqb I
    exact canonical_pauliString h1 h2
  · intro c h1 h2
    obtain ⟨I, hI, e⟩ := QubitOpPool.circ_surj A.nqb c h1 h2
    exact List.mem_map.2 ⟨I, List.mem_range.2 hI, e⟩
  · unfold buildExpansionPool
    simp only [if_true]
    rw [if_neg (by omega)]
    unfold QubitOpPool.fillPool
    rw [if_pos rfl, if_neg (QubitOpPool.four_pow_lt (by omega))]
    refine (QubitOpPool.fill_fold (QubitOpPool.poolCircuit A.nqb) (fun I => (QubitOpPool.circ A.nqb I, QubitOpPool.nY A.nqb I)) (fun _ => true) _ ?_ _ _ ?_).trans ?_
    · intro P I
      cases QubitOpPool.poolCircuit A.nqb I <;> rfl
    · intro I hI; exact QubitOpPool.poolCircuit_eq (List.mem_range.1 hI) hn
    · simp [poolOf, Function.comp_def]
  · unfold buildExpansionPool
    simp only [if_true]
    rw [if_neg (by decide)]
    unfold QubitOpPool.fillPool
    rw [if_neg (by decide), if_pos rfl, if_neg (QubitOpPool.four_pow_lt (by omega))]
    refine (QubitOpPool.fill_fold (QubitOpPool.poolCircuit A.nqb) (fun I => (QubitOpPool.circ A.nqb I, QubitOpPool.nY A.nqb I)) (fun y => decide (y % 2 ≠ 0)) _ ?_ _ _ ?_).trans ?_
    · intro P I
      cases QubitOpPool.poolCircuit A.nqb I with
      | error x => rfl
      | ok a =>
        simp only [except_ok_bind, decide_eq_true_eq]
        rfl
    · intro I hI; exact QubitOpPool.poolCircuit_eq (List.mem_range.1 hI) hn
    · simp only [List.nil_append, poolOf, oddY, List.filter_map, List.map_map]
      congr 2
      refine List.filter_congr fun I _ => ?_
      simp only [Function.comp, QubitOpPool.nY_eq, Circuit.numY, Nat.odd_iff, Nat.mod_two_ne_zero]

/-- C107: `run` with the pool 'complete_qubit' and with the pool 'cqoy': both succeed with the same results, apart from the number of measurements and the pool, or both
fail with the same exception -/
theorem C107_run {A : QiteAlg} (hA : A.Ready) {ls : LstsqOracle} (hls : IsLstsq ls) {par : Option Schedule} (hp : A.GoodBuild par) (hdb : A.db ≠ 0)
    (hn : 0 < A.nqb) (h6 : A.nqb ≤ 6) (hs : A.sparseSb = true) (hb : 0 ≤ A.bThresh) (hH : ∀ t ∈ A.ham, Even t.2.numY)
    (hR : RealUpToPhase A.reference) (hg : A.doLanczos = true → A.lanczosGap ≠ 0)
    (N : SQOpPool.NextPerm) (o : SQOperator.DescSort) (so : QubitOperator.SortOracle) (fuel : ℕ) (eig : EigOracle) :
    ∃ σ st m, ∃ X : Except Exc (ℝ × Option ((NMat × NMat) × ℂ)),
      run N o so fuel ls eig par { A with expansionType := "complete_qubit" } = (X.map fun r => (st, poolOf σ, r.1, r.2)) ∧
      run N o so fuel ls eig par { A with expansionType := "cqoy" } = (X.map fun r => ({ st with nMeas := m }, poolOf (oddY σ), r.1, r.2)) ∧
      st.nMeas = m + (pyTrunc (A.beta / A.db)).toNat * (A.ham.length * (σ.length - (oddY σ).length)) ∧ σ.length = 4 ^ A.nqb ∧
      (A.doLanczos = false → ∃ E, X = .ok (E, none) ∧ st.ekb.getLast? = some E) := by
  obtain ⟨σ, hσ, hl, -, p1, p2⟩ := C107_pools N o so fuel A hn h6
  obtain ⟨q, e, w, n, f, h1, -⟩ := trajectory_zero hA σ
  obtain ⟨q', e2, -⟩ := expVal_any hA hp w n
  obtain ⟨st, m, v1, v2, v3, -⟩ := C107_evolve hA hls hp hdb hσ hs hb hH hR hg (pyTrunc (A.beta / A.db) + 1)
  obtain ⟨st', ψ, x, ph, v1', tr⟩ := C82_evolve hA hls hp hdb hσ (.inl hs) hg (pyTrunc (A.beta / A.db) + 1)
  obtain rfl : st = st' := Except.ok.inj (v1.symm.trans v1')
  rw [add_sub_cancel_right] at v3
  refine ⟨σ, st, m, (do
    let E ← (st.ekb.getLast?).elim (.error .indexError) pure
    let l ← if A.doLanczos then do
        let r ← qlanczos eig st
        pure (some r)
      else pure none
    pure (E, l)), ?_, ?_, v3, hl, ?_⟩
  · unfold run nbeta
    simp only
    rw [if_neg hdb, except_ok_bind, e, except_ok_bind, e2, except_ok_bind]
    simp only
    rw [p1, except_ok_bind]
    have : (inner A.nqb q.psi (A.ham.op q.psi)).re = energy A.nqb A.ham.op A.reference := by rw [f]; rfl
    rw [this]
    have v : evolve ls par { A with expansionType := "complete_qubit" } (poolOf σ) (energy A.nqb A.ham.op A.reference) (pyTrunc (A.beta / A.db) + 1) = .ok st := v1
    rw [v, except_ok_bind]
    cases st.ekb.getLast? with
    | none => rfl
    | some E =>
      cases A.doLanczos with
      | false => rfl
      | true =>
        simp only [Option.elim_some, pure, Except.pure, except_ok_bind, if_true]
        cases qlanczos eig st <;> rfl
  · unfold run nbeta
    simp only
    rw [if_neg hdb, except_ok_bind, e, except_ok_bind, e2, except_ok_bind]
    simp only
    rw [p2, except_ok_bind]
    have : (inner A.nqb q.psi (A.ham.op q.psi)).re = energy A.nqb A.ham.op A.reference := by rw [f]; rfl
    rw [this]
    have v : evolve ls par { A with expansionType := "cqoy" } (poolOf (oddY σ)) (energy A.nqb A.ham.op A.reference) (pyTrunc (A.beta / A.db) + 1) = .ok { st with nMeas := m } := v2
    rw [v, except_ok_bind]
    have ql : qlanczos eig { st with nMeas := m } = qlanczos eig st := rfl
    simp only [ql]
    cases st.ekb.getLast? with
    | none => rfl
    | some E =>
      cases A.doLanczos with
      | false => rfl
      | true =>
        simp only [Option.elim_some, pure, Except.pure, except_ok_bind, if_true]
        cases qlanczos eig st <;> rfl
  · intro hl
    have : st.ekb.getLast? = some (energy A.nqb A.ham.op (ψ (pyTrunc (A.beta / A.db) + 1 - 1).toNat)) := by
      rw [tr.ekb, List.range_succ, List.map_append, List.map_singleton, List.getLast?_append]; simp
    rw [this, hl]
    exact ⟨_, rfl, rfl⟩

/-- C107, a concrete case: one qubit, `H = X`, reference `|0⟩` -/
theorem C107_example (N : SQOpPool.NextPerm) (o : SQOperator.DescSort) (so : QubitOperator.SortOracle) (fuel : ℕ) (eig : EigOracle) :
    ∃ ls σ st m, ∃ X : Except Exc (ℝ × Option ((NMat × NMat) × ℂ)), IsLstsq ls ∧
      run N o so fuel ls eig none { demo with expansionType := "complete_qubit" } = (X.map fun r => (st, poolOf σ, r.1, r.2)) ∧
      run N o so fuel ls eig none { demo with expansionType := "cqoy" } = (X.map fun r => ({ st with nMeas := m }, poolOf (oddY σ), r.1, r.2)) ∧ σ.length = 4 ∧ m ≤ st.nMeas := by
  obtain ⟨ls, hls⟩ := exists_lstsq
  obtain ⟨σ, st, m, X, h1, h2, h3, h4, -⟩ := C107_run demo_ready hls (par := none) (.inl rfl) (by norm_num [demo]) (by decide) (by decide) rfl (by norm_num [demo])
    (fun t ht => by
      simp only [demo, List.mem_cons, List.not_mem_nil, or_false] at ht
      subst ht; simp [Circuit.numY, gX])
    (real_reference (fun g hg => absurd hg (by simp [demo]))) (fun _ => by decide) N o so fuel eig
  exact ⟨ls, σ, st, m, X, hls, h1, h2, h4, by omega⟩

end QiteAlg
end QF
