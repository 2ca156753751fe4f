import Verif.Props.RefOrder
import Verif.Props.SectorEx
/-!
The outcome of SRQK and MRSQK in two related calculations (C120, C121, C122): both find the same number of energies, so a root exists in both or in none.
-/
namespace QF

/-- a run finds `m` energies, `1 ≤ m`: it returns when the target root is one of them (counted from the end when negative), and raises IndexError otherwise -/
structure Finds (run : ℤ → Except Exc QsdResult) (m : ℕ) : Prop where
  one : 1 ≤ m
  root : ∀ t : ℤ, -(m : ℤ) ≤ t → t < m → ∃ R, run t = .ok R ∧ R.eigenvalues.length = m ∧ R.eigenvalues[0]? = some (R.egs : ℂ) ∧
    R.eigenvalues[(if t < 0 then m + t else t).toNat]? = some (R.ets : ℂ)
  noRoot : ∀ t : ℤ, ¬(-(m : ℤ) ≤ t ∧ t < m) → run t = .error .indexError

/-- two runs end in the same way: both raise IndexError, or both return, and every energy of the second is `f` of the one of the first -/
def Follows (f : ℂ → ℂ) (x y : Except Exc QsdResult) : Prop :=
  (x = .error .indexError ∧ y = .error .indexError) ∨
    ∃ R R', x = .ok R ∧ y = .ok R' ∧ R'.eigenvalues = R.eigenvalues.map f ∧ (R'.egs : ℂ) = f R.egs ∧ (R'.ets : ℂ) = f R.ets

theorem common_run_finds {eig : EigOracle} (hE : DescEig eig) {n k : ℕ} {H : Op} (hH : ∀ φ ψ, inner n φ (H ψ) = inner n (H φ) ψ) {φ : ℕ → St} {M : NMat × NMat}
    (hG : GramOf n k H φ M.1 M.2) (h1 : ∀ i < k, inner n (φ i) (φ i) = 1) (hk : 1 ≤ k) : ∃ m ≤ k, Finds (fun t => qsdRun eig k t M) m := by
  set m := ((eig k M.1).1.filter fun z => open Classical in decide (1e-15 < z.re)).length with hm
  have pos : 1 ≤ m := List.length_pos_iff.2 (kept_pos hE hG.overlap h1 hk)
  have root : ∀ t : ℤ, -(m : ℤ) ≤ t → t < m → ∃ R, qsdRun eig k t M = .ok R ∧ QsdOk n k H φ m t R := fun t a b => (C83_common_run hE hH hG h1 hk t).1 ⟨a, b⟩
  obtain ⟨R0, -, q0⟩ := root 0 (by omega) (by omega)
  refine ⟨m, q0.number.2.2, pos, fun t a b => ?_, fun t h => (C83_common_run hE hH hG h1 hk t).2 h⟩
  obtain ⟨R, e, q⟩ := root t a b
  refine ⟨R, e, q.number.1, q.ground, ?_⟩
  by_cases ht : t < 0
  · rw [if_pos ht]; exact q.target.2 ht
  · rw [if_neg ht]; exact q.target.1 (by omega)

/-- SRQK finds between one and `s + 1` energies, whatever the target root -/
theorem srqk_finds {eig : EigOracle} (hE : DescEig eig) (A : QkAlg) (hA : A.Ready) (hp : ∀ g ∈ A.uprep, ApiGate g) (h0 : 1 ≤ A.nstates) :
    ∃ m ≤ A.nstates, Finds (A.srqkRun eig) m := by
  obtain ⟨S, H, ψ, e, hψ, hM⟩ := C77_srqk A hA h0
  have n1 : ∀ m, inner A.nqb (ψ m) (ψ m) = 1 := by
    intro m
    rw [QiteAlg.trotterState_norm hA.ham (hψ m), inner_circuit hA.prep.1 (fun g hg => C02_unitary (hp g hg)), init_psi]
    simp [inner]
  have hG : GramOf A.nqb A.nstates A.ham.op ψ (S, H).1 (S, H).2 := ⟨fun i hi j hj => (hM i hi j hj).1, fun i hi j hj => (hM i hi j hj).2⟩
  obtain ⟨m, hm, h⟩ := common_run_finds hE (hermitian_of_real hA.ham) hG (fun i _ => n1 i) h0
  refine ⟨m, hm, ?_⟩
  convert h using 1
  funext t
  unfold QkAlg.srqkRun; rw [e, except_ok_bind]

theorem mrsqk_finds {eig : EigOracle} (hE : DescEig eig) (A : QkAlg) (hA : A.Ready) (refs : List (List ℕ)) (hR : ∀ r ∈ refs, Occ r ∧ r.length = A.nqb ∧ 1 ∈ r)
    (hne : refs ≠ []) (h0 : 1 ≤ A.nstates) : ∃ m ≤ refs.length * A.nstates, Finds (A.mrsqkRun eig refs) m := by
  obtain ⟨S, H, ψ, φ, e, z0, hψ, atφ, hG, nφ, hk⟩ := mrsqk_gram A hA refs hR hne h0
  obtain ⟨m, hm, h⟩ := common_run_finds (M := (S, H)) hE (hermitian_of_real hA.ham) hG nφ hk
  refine ⟨m, hm, ?_⟩
  convert h using 1
  funext t
  unfold QkAlg.mrsqkRun; rw [e, except_ok_bind]

theorem Finds.follows {run run' : ℤ → Except Exc QsdResult} {m m' : ℕ} (h : Finds run m) (h' : Finds run' m') {f : ℂ → ℂ}
    (hf : ∀ t t' R R', run t = .ok R → run' t' = .ok R' → R'.eigenvalues = R.eigenvalues.map f) (t : ℤ) : Follows f (run t) (run' t) := by
  have p := h.one
  have p' := h'.one
  obtain ⟨R0, e0, l0, -⟩ := h.root 0 (by omega) (by omega)
  obtain ⟨R1, e1, l1, -⟩ := h'.root 0 (by omega) (by omega)
  have hl := congrArg List.length (hf _ _ _ _ e0 e1)
  rw [List.length_map, l0, l1] at hl
  subst hl
  by_cases ht : -(m' : ℤ) ≤ t ∧ t < m'
  · obtain ⟨R, e, -, g, tr⟩ := h.root t ht.1 ht.2
    obtain ⟨R', e', -, g', tr'⟩ := h'.root t ht.1 ht.2
    have q := hf _ _ _ _ e e'
    refine .inr ⟨R, R', e, e', q, ?_, ?_⟩
    · rw [q, List.getElem?_map, g] at g'
      exact (Option.some.inj g').symm
    · rw [q, List.getElem?_map, tr] at tr'
      exact (Option.some.inj tr').symm
  · exact .inl ⟨h.noRoot t ht, h'.noRoot t ht⟩

/-- C120: SRQK with a constant added to the Hamiltonian, whatever the outcome -/
theorem C120_srqk_outcome {eig : EigOracle} (hE : DescEig eig) (A : QkAlg) (hA : A.Ready) (hp : ∀ g ∈ A.uprep, ApiGate g) (h0 : 1 ≤ A.nstates) {c : ℝ} {ham' : QubitOperator}
    (hs : Shifted c A.ham ham') (t : ℤ) : Follows (· + (c : ℂ)) (A.srqkRun eig t) (({ A with ham := ham' } : QkAlg).srqkRun eig t) := by
  obtain ⟨m, -, h⟩ := srqk_finds hE A hA hp h0
  obtain ⟨m', -, h'⟩ := srqk_finds hE { A with ham := ham' } ⟨hA.prep, hs.ready hA.ham, hA.steps⟩ hp h0
  exact h.follows h' (fun _ _ _ _ a b => C120_srqk hE A hA h0 hs a b) t

/-- C120: MRSQK with a constant added to the Hamiltonian, whatever the outcome -/
theorem C120_mrsqk_outcome {eig : EigOracle} (hE : DescEig eig) (A : QkAlg) (hA : A.Ready) (refs : List (List ℕ)) (hR : ∀ r ∈ refs, Occ r ∧ r.length = A.nqb ∧ 1 ∈ r)
    (hne : refs ≠ []) (h0 : 1 ≤ A.nstates) {c : ℝ} {ham' : QubitOperator} (hs : Shifted c A.ham ham') (t : ℤ) :
    Follows (· + (c : ℂ)) (A.mrsqkRun eig refs t) (({ A with ham := ham' } : QkAlg).mrsqkRun eig refs t) := by
  obtain ⟨m, -, h⟩ := mrsqk_finds hE A hA refs hR hne h0
  obtain ⟨m', -, h'⟩ := mrsqk_finds hE { A with ham := ham' } ⟨hA.prep, hs.ready hA.ham, hA.steps⟩ refs hR hne h0
  exact h.follows h' (fun _ _ _ _ a b => C120_mrsqk hE A hA refs hR hne h0 hs a b) t

/-- C121: SRQK in other units, whatever the outcome -/
theorem C121_srqk_outcome {eig : EigOracle} (hE : DescEig eig) (A : QkAlg) (hA : A.Ready) (hp : ∀ g ∈ A.uprep, ApiGate g) (h0 : 1 ≤ A.nstates) {a : ℝ} (ha : 0 < a) (t : ℤ) :
    Follows (fun z => (a : ℂ) * z) (A.srqkRun eig t) ((A.inUnits a).srqkRun eig t) := by
  obtain ⟨m, -, h⟩ := srqk_finds hE A hA hp h0
  obtain ⟨m', -, h'⟩ := srqk_finds hE (A.inUnits a) ⟨hA.prep, scaled_ready a hA.ham, hA.steps⟩ hp h0
  exact h.follows h' (fun _ _ _ _ x y => C121_srqk hE A hA h0 ha x y) t

/-- C121: MRSQK in other units, whatever the outcome -/
theorem C121_mrsqk_outcome {eig : EigOracle} (hE : DescEig eig) (A : QkAlg) (hA : A.Ready) (refs : List (List ℕ)) (hR : ∀ r ∈ refs, Occ r ∧ r.length = A.nqb ∧ 1 ∈ r)
    (hne : refs ≠ []) (h0 : 1 ≤ A.nstates) {a : ℝ} (ha : 0 < a) (t : ℤ) : Follows (fun z => (a : ℂ) * z) (A.mrsqkRun eig refs t) ((A.inUnits a).mrsqkRun eig refs t) := by
  obtain ⟨m, -, h⟩ := mrsqk_finds hE A hA refs hR hne h0
  obtain ⟨m', -, h'⟩ := mrsqk_finds hE (A.inUnits a) ⟨hA.prep, scaled_ready a hA.ham, hA.steps⟩ refs hR hne h0
  exact h.follows h' (fun _ _ _ _ x y => C121_mrsqk hE A hA refs hR hne h0 ha x y) t

/-- C122: MRSQK with the references in another order, whatever the outcome -/
theorem C122_mrsqk_outcome {eig : EigOracle} (hE : DescEig eig) (A : QkAlg) (hA : A.Ready) (refs refs' : List (List ℕ)) (hR : ∀ r ∈ refs, Occ r ∧ r.length = A.nqb ∧ 1 ∈ r)
    (hne : refs ≠ []) (h0 : 1 ≤ A.nstates) (hp : refs'.Perm refs) (t : ℤ) : Follows id (A.mrsqkRun eig refs t) (A.mrsqkRun eig refs' t) := by
  obtain ⟨m, -, h⟩ := mrsqk_finds hE A hA refs hR hne h0
  obtain ⟨m', -, h'⟩ := mrsqk_finds hE A hA refs' (fun r hr => hR r (hp.mem_iff.1 hr)) (fun e => hne (by rw [e] at hp; exact hp.nil_eq.symm)) h0
  exact h.follows h' (fun _ _ _ _ x y => by rw [C122_mrsqk hE A hA refs refs' hR hne h0 hp x y, List.map_id]) t

/-- C122, a concrete case of the hypotheses: the two-qubit system of C116 with its two determinants in either order -/
theorem C122_example {eig : EigOracle} (hE : DescEig eig) : sectorQk.Ready ∧ (∀ r ∈ [[1, 1], [0, 1]], Occ r ∧ r.length = sectorQk.nqb ∧ 1 ∈ r) ∧
    [[0, 1], [1, 1]].Perm [[1, 1], [0, 1]] ∧ ∃ R R', sectorQk.mrsqkRun eig [[1, 1], [0, 1]] 0 = .ok R ∧ sectorQk.mrsqkRun eig [[0, 1], [1, 1]] 0 = .ok R' ∧
      R'.eigenvalues = R.eigenvalues ∧ R'.egs = R.egs := by
  have hR : ∀ r ∈ [[1, 1], [0, 1]], Occ r ∧ r.length = sectorQk.nqb ∧ 1 ∈ r := by
    intro r hr
    simp only [List.mem_cons, List.not_mem_nil, or_false] at hr
    rcases hr with rfl | rfl <;> refine ⟨?_, rfl, by simp⟩ <;> intro x hx <;> simp at hx <;> omega
  have hp : [[0, 1], [1, 1]].Perm [[1, 1], [0, 1]] := List.Perm.swap _ _ _
  obtain ⟨m, -, h⟩ := mrsqk_finds hE sectorQk (sectorQk_ready 1) _ hR (by simp) (by decide)
  have h1 := h.one
  obtain ⟨R0, e0, -⟩ := h.root 0 (by omega) (by omega)
  rcases C122_mrsqk_outcome hE sectorQk (sectorQk_ready 1) _ _ hR (by simp) (by decide) hp 0 with ⟨e, -⟩ | ⟨R, R', e, e', q, g, -⟩
  · rw [e0] at e; cases e
  · exact ⟨sectorQk_ready 1, hR, hp, R, R', e, e', by rw [q, List.map_id], Complex.ofReal_injective (show (R'.egs : ℂ) = R.egs from g)⟩

end QF
