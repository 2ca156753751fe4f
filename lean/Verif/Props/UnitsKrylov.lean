import Verif.Props.ZeroUcc
import Verif.Props.NtSrqk
/-!
C121: the unit of energy: the Hamiltonian multiplied by a positive constant, the times divided by it.
-/
namespace QF
open SQOperator (DescSort)
open QubitOperator (SortOracle)

/-- the energies of `R'` are those of `R` times `a` -/
def ScaledBy (a : ℝ) (R R' : QsdResult) : Prop := R'.eigenvalues = R.eigenvalues.map ((a : ℂ) * ·)

theorem scaled_ready {H : QubitOperator} {n : ℕ} (a : ℝ) (h : ∀ t ∈ H, t.1.im = 0 ∧ t.2.PauliString n) : ∀ t ∈ H.multCoeffs (a : ℂ), t.1.im = 0 ∧ t.2.PauliString n := by
  intro t ht
  obtain ⟨s, hs, rfl⟩ := List.mem_map.1 ht
  exact ⟨by simp [(h s hs).1], (h s hs).2⟩

theorem scaled_op (H : QubitOperator) (a : ℝ) : (H.multCoeffs (a : ℂ)).op = (a : ℂ) • H.op := (C22_mult_coeffs H a).1

/-- the Trotter states for `a H` and the time `τ / a` are those for `H` and `τ` -/
theorem trotter_scaled {H : QubitOperator} {N : ℤ} {a τ τ' : ℝ} (ha : a ≠ 0) (hτ : τ' = τ / a) {Φ ψ ψ' : St} (h : TrotterState H N τ Φ ψ)
    (h' : TrotterState (H.multCoeffs (a : ℂ)) N τ' Φ ψ') : ψ' = ψ := by
  refine h'.unique ?_
  obtain ⟨Us, h1, rfl⟩ := h
  refine ⟨Us, ?_, rfl⟩
  unfold QubitOperator.multCoeffs
  rw [List.forall₂_map_left_iff]
  refine h1.imp fun t U hU => ?_
  have ha' : (a : ℂ) ≠ 0 := by exact_mod_cast ha
  have : -Complex.I * (τ' : ℂ) * (t.1 * (a : ℂ)) / (N : ℂ) = -Complex.I * (τ : ℂ) * t.1 / (N : ℂ) := by
    rw [hτ]
    push_cast
    field_simp
  show IsExp ((-Complex.I * (τ' : ℂ) * (t.1 * (a : ℂ)) / (N : ℂ)) • t.2.op) U
  rw [this]
  exact hU

/-- C121, for any states -/
theorem C121_ritz {eig : EigOracle} (hE : DescEig eig) {n k : ℕ} {H H' : Op} {a : ℝ} (ha : 0 < a) (hs : H' = (a : ℂ) • H) (hH : ∀ φ ψ, inner n φ (H ψ) = inner n (H φ) ψ)
    {φ φ' : ℕ → St} {M M' : NMat × NMat} (hG : GramOf n k H φ M.1 M.2) (hG' : GramOf n k H' φ' M'.1 M'.2) (hu : ∀ p < k, φ' p = φ p)
    {t t' : ℤ} {R R' : QsdResult} (h : qsdRun eig k t M = .ok R) (h' : qsdRun eig k t' M' = .ok R') : ScaledBy a R R' := by
  have hS : ∀ i < k, ∀ j < k, M'.1 i j = M.1 i j := fun i hi j hj => by rw [hG.overlap i hi j hj, hG'.overlap i hi j hj, hu i hi, hu j hj]
  have hsp : ∀ v, spanState k φ' v = spanState k φ v := fun v => by
    unfold spanState
    exact Finset.sum_congr rfl fun p hp => by rw [hu p (Finset.mem_range.1 hp)]
  have := affine_kept hE (c := 0) ha (by rw [hs]; simp) hH hG hG' (fun v hv => ⟨v, by
      obtain ⟨t, ht, he⟩ := hv
      exact ⟨t, ht, fun i hi => by rw [← he i hi]; exact Finset.sum_congr rfl fun p hp => by rw [hS i hi p (Finset.mem_range.1 hp)]⟩, hsp v⟩)
    (fun v hv => ⟨v, by
      obtain ⟨t, ht, he⟩ := hv
      exact ⟨t, ht, fun i hi => by rw [← he i hi]; exact Finset.sum_congr rfl fun p hp => by rw [hS i hi p (Finset.mem_range.1 hp)]⟩, (hsp v).symm⟩) h h'
  unfold ScaledBy
  rw [this]
  exact List.map_congr_left fun z _ => by rw [Complex.ofReal_zero, add_zero]

/-- the calculation in other units -/
noncomputable def QkAlg.inUnits (A : QkAlg) (a : ℝ) : QkAlg := { A with ham := A.ham.multCoeffs (a : ℂ), dt := A.dt / a }

/-- C121: SRQK in other units -/
theorem C121_srqk {eig : EigOracle} (hE : DescEig eig) (A : QkAlg) (hA : A.Ready) (h0 : 1 ≤ A.nstates) {a : ℝ} (ha : 0 < a) {t t' : ℤ} {R R' : QsdResult}
    (h : A.srqkRun eig t = .ok R) (h' : (A.inUnits a).srqkRun eig t' = .ok R') : ScaledBy a R R' := by
  obtain ⟨S1, H1, ψ, e, hψ, hM⟩ := C77_srqk A hA h0
  obtain ⟨S2, H2, ψ', e', hψ', hM'⟩ := C77_srqk (A.inUnits a) ⟨hA.prep, scaled_ready a hA.ham, hA.steps⟩ h0
  unfold QkAlg.srqkRun at h h'
  rw [e, except_ok_bind] at h
  rw [e', except_ok_bind] at h'
  exact C121_ritz hE ha (scaled_op _ a) (hermitian_of_real hA.ham) (φ := ψ) (φ' := ψ') (M := (S1, H1)) (M' := (S2, H2))
    ⟨fun i hi j hj => (hM i hi j hj).1, fun i hi j hj => (hM i hi j hj).2⟩
    ⟨fun i hi j hj => (hM' i hi j hj).1, fun i hi j hj => (hM' i hi j hj).2⟩ (fun p _ => trotter_scaled ha.ne' (by simp only [QkAlg.inUnits]; ring) (hψ p) (hψ' p)) h h'

/-- C121: MRSQK in other units -/
theorem C121_mrsqk {eig : EigOracle} (hE : DescEig eig) (A : QkAlg) (hA : A.Ready) (refs : List (List ℕ)) (hR : ∀ r ∈ refs, Occ r ∧ r.length = A.nqb ∧ 1 ∈ r)
    (hne : refs ≠ []) (h0 : 1 ≤ A.nstates) {a : ℝ} (ha : 0 < a) {t t' : ℤ} {R R' : QsdResult}
    (h : A.mrsqkRun eig refs t = .ok R) (h' : (A.inUnits a).mrsqkRun eig refs t' = .ok R') : ScaledBy a R R' := by
  obtain ⟨S1, H1, ψ, φ, e, -, hψ, at1, hG, -, -⟩ := mrsqk_gram A hA refs hR hne h0
  obtain ⟨S2, H2, ψ', φ', e', -, hψ', at1', hG', -, -⟩ := mrsqk_gram (A.inUnits a) ⟨hA.prep, scaled_ready a hA.ham, hA.steps⟩ refs hR hne h0
  unfold QkAlg.mrsqkRun at h h'
  rw [e, except_ok_bind] at h
  rw [e', except_ok_bind] at h'
  refine C121_ritz hE ha (scaled_op _ a) (hermitian_of_real hA.ham) (M := (S1, H1)) (M' := (S2, H2)) hG (φ' := φ') (show GramOf A.nqb (refs.length * A.nstates) (A.ham.multCoeffs (a : ℂ)).op φ' S2 H2 from hG') (fun p hp => ?_) h h'
  have h1 : p / A.nstates < refs.length := Nat.div_lt_of_lt_mul (by rwa [mul_comm])
  have h2 : p % A.nstates < A.nstates := Nat.mod_lt _ (by omega)
  have a1 := at1 (p / A.nstates) refs[p / A.nstates] (List.getElem?_eq_getElem h1) _ h2
  have a2 := at1' (p / A.nstates) refs[p / A.nstates] (List.getElem?_eq_getElem h1) _ h2
  rw [Nat.div_add_mod'] at a1
  have a2 : φ' (p / A.nstates * A.nstates + p % A.nstates) = _ := a2
  rw [Nat.div_add_mod'] at a2
  rw [a1, a2]
  exact trotter_scaled ha.ne' (by simp only [QkAlg.inUnits]; ring) (hψ _ (List.getElem_mem h1) _) (hψ' _ (List.getElem_mem h1) _)

end QF
