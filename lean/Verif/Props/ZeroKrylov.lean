import Verif.Props.Kept
import Verif.Props.SectorEx

/-!
C120: the zero of energy: a constant added to the Hamiltonian.  Krylov methods.
-/
namespace QF

/-- `H'` is `H` with the constant `c` added, as a further term or to an existing constant term -/
def Shifted (c : ℝ) (H H' : QubitOperator) : Prop :=
  ∃ (pre post : QubitOperator) (e e' : ℝ), (H = pre ++ ((e : ℂ), []) :: post ∨ e = 0 ∧ H = pre ++ post) ∧ H' = pre ++ ((e' : ℂ), []) :: post ∧ e' = e + c

theorem op_insert (pre post : QubitOperator) (z : ℂ) : QubitOperator.op (pre ++ (z, []) :: post) = QubitOperator.op (pre ++ post) + z • (1 : Op) := by
  unfold QubitOperator.op
  simp only [List.map_append, List.map_cons, List.sum_append, List.sum_cons, Circuit.op_nil]
  abel

/-- the operator is that of the Hamiltonian plus the constant -/
theorem Shifted.op {c : ℝ} {H H' : QubitOperator} (h : Shifted c H H') : H'.op = H.op + (c : ℂ) • (1 : Op) := by
  obtain ⟨pre, post, e, e', h1, rfl, rfl⟩ := h
  rw [op_insert]
  rcases h1 with rfl | ⟨rfl, rfl⟩
  · rw [op_insert, Complex.ofReal_add, add_smul, add_assoc]
  · simp

theorem pauliString_nil (n : ℕ) : Circuit.PauliString n [] :=
  ⟨by simp, by simp, by intro g hg; cases hg⟩

theorem Shifted.ready {c : ℝ} {H H' : QubitOperator} (h : Shifted c H H') {n : ℕ} (hH : ∀ t ∈ H, t.1.im = 0 ∧ t.2.PauliString n) : ∀ t ∈ H', t.1.im = 0 ∧ t.2.PauliString n := by
  obtain ⟨pre, post, e, e', h1, rfl, rfl⟩ := h
  intro t ht
  rcases List.mem_append.1 ht with ht | ht
  · rcases h1 with rfl | ⟨-, rfl⟩
    · exact hH t (List.mem_append.2 (.inl ht))
    · exact hH t (List.mem_append.2 (.inl ht))
  · rcases List.mem_cons.1 ht with rfl | ht
    · exact ⟨Complex.ofReal_im _, pauliString_nil n⟩
    · rcases h1 with rfl | ⟨-, rfl⟩
      · exact hH t (List.mem_append.2 (.inr (List.mem_cons_of_mem _ ht)))
      · exact hH t (List.mem_append.2 (.inr ht))

/-- a constant term is a phase -/
theorem trotter_insert {pre post : QubitOperator} {z : ℂ} {N : ℤ} {τ : ℝ} {Φ ψ : St} (h : TrotterState (pre ++ post) N τ Φ ψ) :
    TrotterState (pre ++ (z, []) :: post) N τ Φ (Complex.exp (-Complex.I * τ * z / (N : ℂ)) ^ N.toNat • ψ) := by
  obtain ⟨Us, h1, rfl⟩ := h
  obtain ⟨U1, U2, a1, a2, rfl⟩ := forall₂_append_left h1
  have e : IsExp ((-Complex.I * τ * z / (N : ℂ)) • Circuit.op []) (Complex.exp (-Complex.I * τ * z / (N : ℂ)) • (1 : Op)) := by
    rw [Circuit.op_nil]; exact isExp_scalar _
  refine ⟨U1 ++ (Complex.exp (-Complex.I * τ * z / (N : ℂ)) • (1 : Op)) :: U2, List.rel_append a1 (List.Forall₂.cons e a2), ?_⟩
  rw [applyInOrder_append, applyInOrder_append, applyInOrder]
  have : applyInOrder U2 * (Complex.exp (-Complex.I * τ * z / (N : ℂ)) • (1 : Op)) * applyInOrder U1 =
      Complex.exp (-Complex.I * τ * z / (N : ℂ)) • (applyInOrder U2 * applyInOrder U1) := by
    rw [mul_smul_comm, mul_one, smul_mul_assoc]
  rw [this, smul_pow]
  rfl

theorem phase_norm (N : ℤ) (τ e : ℝ) : ‖Complex.exp (-Complex.I * τ * (e : ℂ) / (N : ℂ)) ^ N.toNat‖ = 1 := by
  rw [norm_pow, show -Complex.I * τ * (e : ℂ) / (N : ℂ) = ((-(τ * e / N) : ℝ) : ℂ) * Complex.I by push_cast; ring, Complex.norm_exp_ofReal_mul_I, one_pow]

theorem trotter_remove {pre post : QubitOperator} {z : ℂ} {N : ℤ} {τ : ℝ} {Φ ψ : St} (h : TrotterState (pre ++ (z, []) :: post) N τ Φ ψ) :
    ∃ ψ0, TrotterState (pre ++ post) N τ Φ ψ0 := by
  obtain ⟨Us, h1, rfl⟩ := h
  obtain ⟨U1, U2, a1, a2, rfl⟩ := forall₂_append_left h1
  cases a2 with
  | cons a a2 => exact ⟨_, U1 ++ _, List.rel_append a1 a2, rfl⟩

/-- the shifted Hamiltonian gives the same states up to phases -/
theorem Shifted.trotter {c : ℝ} {H H' : QubitOperator} (h : Shifted c H H') {N : ℤ} {τ : ℝ} {Φ ψ ψ' : St} (hψ : TrotterState H N τ Φ ψ) (hψ' : TrotterState H' N τ Φ ψ') :
    ∃ u : ℂ, ‖u‖ = 1 ∧ ψ' = u • ψ := by
  obtain ⟨pre, post, e, e', h1, rfl, rfl⟩ := h
  rcases h1 with rfl | ⟨-, rfl⟩
  · obtain ⟨ψ0, h0⟩ := trotter_remove hψ
    rw [hψ.unique (trotter_insert h0), hψ'.unique (trotter_insert h0)]
    have n1 := phase_norm N τ e
    have n2 := phase_norm N τ (e + c)
    refine ⟨Complex.exp (-Complex.I * τ * ((e + c : ℝ) : ℂ) / (N : ℂ)) ^ N.toNat / Complex.exp (-Complex.I * τ * (e : ℂ) / (N : ℂ)) ^ N.toNat, ?_, ?_⟩
    · rw [norm_div, n1, n2, div_one]
    · rw [smul_smul, div_mul_cancel₀]
      intro h0
      rw [h0, norm_zero] at n1
      exact zero_ne_one n1
  · exact ⟨_, phase_norm N τ _, hψ'.unique (trotter_insert hψ)⟩

/-- the energies of `R'` are those of `R` plus `c` -/
def ShiftedBy (c : ℝ) (R R' : QsdResult) : Prop := R'.eigenvalues = R.eigenvalues.map (· + (c : ℂ))

/-- states that agree up to phases: the kept vectors of the second are those of the first -/
theorem KeptVec.phase {n k : ℕ} {φ φ' : ℕ → St} {S S' : NMat} (hS : ∀ i < k, ∀ j < k, S i j = inner n (φ i) (φ j)) (hS' : ∀ i < k, ∀ j < k, S' i j = inner n (φ' i) (φ' j))
    {u : ℕ → ℂ} (hu1 : ∀ p < k, ‖u p‖ = 1) (hu2 : ∀ p < k, φ' p = u p • φ p) {v : ℕ → ℂ} (hv : KeptVec k S' v) : KeptVec k S (fun p => u p * v p) := by
  obtain ⟨t, ht, he⟩ := hv
  refine ⟨t, ht, fun i hi => ?_⟩
  have hc : u i * (starRingEnd ℂ) (u i) = 1 := by rw [Complex.mul_conj, Complex.normSq_eq_norm_sq, hu1 i hi]; simp
  rw [mul_left_comm, ← he i hi, Finset.mul_sum]
  refine Finset.sum_congr rfl fun p hp => ?_
  have hp := Finset.mem_range.1 hp
  rw [hS i hi p hp, hS' i hi p hp, hu2 i hi, hu2 p hp, inner_smul_right, inner_smul_left']
  linear_combination (-(inner n (φ i) (φ p) * u p * v p)) * hc

/-- C120, for any states: states that agree up to phases, and a Hamiltonian with a constant added.  Every energy moves by the constant, whatever number of
directions is dropped. -/
theorem C120_ritz {eig : EigOracle} (hE : DescEig eig) {n k : ℕ} {H H' : Op} {c : ℝ} (hs : H' = H + (c : ℂ) • (1 : Op)) (hH : ∀ φ ψ, inner n φ (H ψ) = inner n (H φ) ψ)
    {φ φ' : ℕ → St} {M M' : NMat × NMat} (hG : GramOf n k H φ M.1 M.2) (hG' : GramOf n k H' φ' M'.1 M'.2) (hu : ∀ p < k, ∃ u : ℂ, ‖u‖ = 1 ∧ φ' p = u • φ p)
    {t t' : ℤ} {R R' : QsdResult} (h : qsdRun eig k t M = .ok R)
    (h' : qsdRun eig k t' M' = .ok R') : ShiftedBy c R R' := by
  obtain ⟨u, hu1, hu2⟩ : ∃ u : ℕ → ℂ, (∀ p < k, ‖u p‖ = 1) ∧ ∀ p < k, φ' p = u p • φ p := by
    choose u a b using hu
    exact ⟨fun p => if hp : p < k then u p hp else 1, fun p hp => by simp only [dif_pos hp]; exact a p hp, fun p hp => by simp only [dif_pos hp]; exact b p hp⟩
  have hu0 : ∀ p < k, u p ≠ 0 := fun p hp h0 => by have := hu1 p hp; rw [h0, norm_zero] at this; exact zero_ne_one this
  have := affine_kept hE (a := 1) (c := c) one_pos (by rw [hs]; simp) hH hG hG' (fun v hv => ⟨_, KeptVec.phase hG.overlap hG'.overlap hu1 hu2 hv, by
    unfold spanState
    refine Finset.sum_congr rfl fun p hp => ?_
    rw [hu2 p (Finset.mem_range.1 hp), smul_smul, mul_comm]⟩)
    (fun v hv => ⟨_, KeptVec.phase (u := fun p => (u p)⁻¹) hG'.overlap hG.overlap (fun p hp => by rw [norm_inv, hu1 p hp, inv_one])
      (fun p hp => by rw [hu2 p hp, smul_smul, inv_mul_cancel₀ (hu0 p hp), one_smul]) hv, by
    unfold spanState
    refine Finset.sum_congr rfl fun p hp => ?_
    have hp := Finset.mem_range.1 hp
    rw [hu2 p hp, smul_smul, mul_right_comm, inv_mul_cancel₀ (hu0 p hp), one_mul]⟩) h h'
  unfold ShiftedBy
  rw [this]
  refine List.map_congr_left fun z _ => ?_
  rw [Complex.ofReal_one, one_mul]

/-- C120: SRQK with a constant added to the Hamiltonian -/
theorem C120_srqk {eig : EigOracle} (hE : DescEig eig) (A : QkAlg) (hA : A.Ready) (h0 : 1 ≤ A.nstates) {c : ℝ} {ham' : QubitOperator} (hs : Shifted c A.ham ham')
    {t t' : ℤ} {R R' : QsdResult}
    (h : A.srqkRun eig t = .ok R) (h' : ({ A with ham := ham' } : QkAlg).srqkRun eig t' = .ok R') : ShiftedBy c R R' := by
  obtain ⟨S1, H1, ψ, e, hψ, hM⟩ := C77_srqk A hA h0
  obtain ⟨S2, H2, ψ', e', hψ', hM'⟩ := C77_srqk { A with ham := ham' } ⟨hA.prep, hs.ready hA.ham, hA.steps⟩ h0
  unfold QkAlg.srqkRun at h h'
  rw [e, except_ok_bind] at h
  rw [e', except_ok_bind] at h'
  exact C120_ritz hE hs.op (hermitian_of_real hA.ham) (φ := ψ) (φ' := ψ') (M := (S1, H1)) (M' := (S2, H2))
    ⟨fun i hi j hj => (hM i hi j hj).1, fun i hi j hj => (hM i hi j hj).2⟩
    ⟨fun i hi j hj => (hM' i hi j hj).1, fun i hi j hj => (hM' i hi j hj).2⟩ (fun p _ => hs.trotter (hψ p) (hψ' p)) h h'

/-- C120: MRSQK with a constant added to the Hamiltonian -/
theorem C120_mrsqk {eig : EigOracle} (hE : DescEig eig) (A : QkAlg) (hA : A.Ready) (refs : List (List ℕ)) (hR : ∀ r ∈ refs, Occ r ∧ r.length = A.nqb ∧ 1 ∈ r)
    (hne : refs ≠ []) (h0 : 1 ≤ A.nstates) {c : ℝ} {ham' : QubitOperator} (hs : Shifted c A.ham ham')
    {t t' : ℤ} {R R' : QsdResult}
    (h : A.mrsqkRun eig refs t = .ok R) (h' : ({ A with ham := ham' } : QkAlg).mrsqkRun eig refs t' = .ok R') : ShiftedBy c R R' := by
  obtain ⟨S1, H1, ψ, φ, e, -, hψ, at1, hG, -, -⟩ := mrsqk_gram A hA refs hR hne h0
  obtain ⟨S2, H2, ψ', φ', e', -, hψ', at1', hG', -, -⟩ := mrsqk_gram { A with ham := ham' } ⟨hA.prep, hs.ready hA.ham, hA.steps⟩ refs hR hne h0
  unfold QkAlg.mrsqkRun at h h'
  rw [e, except_ok_bind] at h
  rw [e', except_ok_bind] at h'
  refine C120_ritz hE hs.op (hermitian_of_real hA.ham) hG hG' (fun p hp => ?_) h h'
  have h1 : p / A.nstates < refs.length := Nat.div_lt_of_lt_mul (by rwa [mul_comm])
  have h2 : p % A.nstates < A.nstates := Nat.mod_lt _ (by omega)
  have a1 := at1 (p / A.nstates) refs[p / A.nstates] (List.getElem?_eq_getElem h1) _ h2
  have a2 := at1' (p / A.nstates) refs[p / A.nstates] (List.getElem?_eq_getElem h1) _ h2
  simp only at a2
  rw [Nat.div_add_mod'] at a1 a2
  rw [a1, a2]
  exact hs.trotter (hψ _ (List.getElem_mem h1) _) (hψ' _ (List.getElem_mem h1) _)

end QF
