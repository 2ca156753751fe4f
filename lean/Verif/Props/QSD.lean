import Verif.Props.Ritz
import Verif.Props.Krylov
import Verif.Props.Qite
import Verif.Model.QSD

/-!
C83: the energies the quantum Krylov algorithms report.
-/
namespace QF

/-- the sum of the eigenvalues of an overlap matrix of normalised states is their number: the largest eigenvalue survives -/
theorem kept_pos {eig : EigOracle} (hE : DescEig eig) {n k : ℕ} {φ : ℕ → St} {S : NMat} (hS : ∀ i < k, ∀ j < k, S i j = inner n (φ i) (φ j))
    (h1 : ∀ i < k, inner n (φ i) (φ i) = 1) (hk : 1 ≤ k) : ((eig k S).1.filter fun z => open Classical in decide (1e-15 < z.re)) ≠ [] := by
  classical
  have hSh : ∀ i < k, ∀ j < k, (starRingEnd ℂ) (S i j) = S j i := fun i hi j hj => by rw [hS i hi j hj, hS j hj i hi, inner_conj]
  obtain ⟨e1, e2, -⟩ := hE k S hSh
  intro h0
  rw [List.filter_eq_nil_iff] at h0
  have hd := eig_diag e1 e2
  set U := NMat.mat k k (eig k S).2 with hU
  have hUU : U * U.conjTranspose = 1 := mul_eq_one_comm.1 (mat_orthonormal e2)
  have ht : Matrix.trace (NMat.mat k k S) = ∑ j : Fin k, (eig k S).1.getD j 0 := by
    rw [← Matrix.trace_diagonal, ← hd, Matrix.trace_mul_comm, Matrix.mul_assoc, hUU, Matrix.mul_one]
  have ht2 : Matrix.trace (NMat.mat k k S) = k := by
    rw [Matrix.trace]
    simp only [Matrix.diag_apply, NMat.mat]
    rw [Finset.sum_congr rfl (fun i _ => by rw [hS i i.2 i i.2, h1 i i.2])]
    simp
  have hre : (k : ℝ) = ∑ j : Fin k, ((eig k S).1.getD j 0).re := by
    rw [← Complex.re_sum, ← ht, ht2]; simp
  have hle : ∑ j : Fin k, ((eig k S).1.getD j 0).re ≤ ∑ j : Fin k, (1e-15 : ℝ) := by
    refine Finset.sum_le_sum fun j _ => ?_
    have hj : (j : ℕ) < (eig k S).1.length := by rw [e1.1]; exact j.2
    rw [List.getD_eq_getElem _ _ hj]
    simpa using h0 _ (List.getElem_mem hj)
  rw [← hre] at hle
  simp only [Finset.sum_const, Finset.card_univ, Fintype.card_fin, nsmul_eq_mul] at hle
  have : (1 : ℝ) ≤ k := by exact_mod_cast hk
  nlinarith

/-- what the user reads after a run: `R` holds the sorted real energies of orthonormal states of the span of `φ 0, …, φ (k-1)` -/
structure QsdOk (n k : ℕ) (H : Op) (φ : ℕ → St) (rank : ℕ) (target : ℤ) (R : QsdResult) : Prop where
  number : R.eigenvalues.length = rank ∧ 1 ≤ rank ∧ rank ≤ k
  sorted : R.eigenvalues.Pairwise fun a b => a.re ≤ b.re
  ground : R.eigenvalues[0]? = some (R.egs : ℂ)
  target : (0 ≤ target → R.eigenvalues[target.toNat]? = some (R.ets : ℂ)) ∧ (target < 0 → R.eigenvalues[(rank + target).toNat]? = some (R.ets : ℂ))
  ritz : ∀ z ∈ R.eigenvalues, ∃ c, inner n (spanState k φ c) (spanState k φ c) = 1 ∧ inner n (spanState k φ c) (H (spanState k φ c)) = z
  variational : ∀ E0 : ℝ, (∀ χ, inner n χ χ = 1 → E0 ≤ energy n H χ) → E0 ≤ R.egs ∧ E0 ≤ R.ets
  vectors : rank = 1 → RitzPairs n k H φ R.eigenvalues R.eigenvectors
  optimal : rank = k → ∀ c, inner n (spanState k φ c) (spanState k φ c) = 1 → R.egs ≤ energy n H (spanState k φ c)

theorem single_span {k i : ℕ} (hi : i < k) (φ : ℕ → St) : spanState k φ (fun j => if j = i then 1 else 0) = φ i := by
  unfold spanState
  rw [Finset.sum_eq_single i]
  · simp
  · intro b _ hb; simp [hb]
  · intro h; exact absurd (Finset.mem_range.2 hi) h

theorem QsdOk.below {n k : ℕ} {H : Op} {φ : ℕ → St} {rank : ℕ} {target : ℤ} {R : QsdResult} (h : QsdOk n k H φ rank target R) (hr : rank = k) {i : ℕ} (hi : i < k)
    (h1 : inner n (φ i) (φ i) = 1) : R.egs ≤ energy n H (φ i) := by
  have := h.optimal hr (fun j => if j = i then 1 else 0)
  rw [single_span hi φ] at this
  exact this h1

theorem pyIndexZ_some {α : Type} {l : List α} {i : ℤ} (h1 : -(l.length : ℤ) ≤ i) (h2 : i < l.length) :
    ∃ x, pyIndexZ l i = .ok x ∧ (0 ≤ i → l[i.toNat]? = some x) ∧ (i < 0 → l[(l.length + i).toNat]? = some x) := by
  unfold pyIndexZ
  by_cases h : 0 ≤ i
  · have hi : i.toNat < l.length := by omega
    refine ⟨l[i.toNat], ?_, fun _ => List.getElem?_eq_getElem hi, fun h' => absurd h (by omega)⟩
    rw [if_pos h, List.getElem?_eq_getElem hi]; rfl
  · have hi : (l.length + i).toNat < l.length := by omega
    refine ⟨l[(l.length + i).toNat], ?_, fun h' => absurd h' h, fun _ => List.getElem?_eq_getElem hi⟩
    rw [if_neg h, if_pos h1, List.getElem?_eq_getElem hi]; rfl

/-- C83: `common_run` on the matrices of normalised states `φ`: it succeeds exactly when the target root is an index of the energies that are left -/
theorem C83_common_run {eig : EigOracle} (hE : DescEig eig) {n k : ℕ} {H : Op} (hH : ∀ φ ψ, inner n φ (H ψ) = inner n (H φ) ψ) {φ : ℕ → St} {M : NMat × NMat}
    (hG : GramOf n k H φ M.1 M.2) (h1 : ∀ i < k, inner n (φ i) (φ i) = 1) (hk : 1 ≤ k) (target : ℤ) :
    let rank := ((eig k M.1).1.filter fun z => open Classical in decide (1e-15 < z.re)).length
    (-(rank : ℤ) ≤ target ∧ target < rank → ∃ R, qsdRun eig k target M = .ok R ∧ QsdOk n k H φ rank target R) ∧
    (¬(-(rank : ℤ) ≤ target ∧ target < rank) → qsdRun eig k target M = .error .indexError) := by
  intro rank
  obtain ⟨e, C, s1, s2, s3, s4⟩ := C83_variational hE hH hG true
  have s2 := s2 rfl
  have hpos : 1 ≤ rank := by
    have := kept_pos hE hG.overlap h1 hk
    exact List.length_pos_iff.2 this
  have hSh : ∀ i < k, ∀ j < k, (starRingEnd ℂ) (M.1 i j) = M.1 j i := fun i hi j hj => by rw [hG.overlap i hi j hj, hG.overlap j hj i hi, inner_conj]
  have hrk : rank ≤ k := by
    have : rank ≤ (eig k M.1).1.length := List.length_filter_le _ _
    rwa [(hE k M.1 hSh).1.1] at this
  have hlen : e.length = rank := s3
  obtain ⟨z, l, rfl⟩ := List.exists_cons_of_ne_nil (by intro h; rw [h] at hlen; simp at hlen; omega : e ≠ [])
  have real : ∀ w ∈ z :: l, w = (w.re : ℂ) := fun w hw => by
    obtain ⟨c, -, -, h, -⟩ := s4 w hw
    apply Complex.ext <;> simp [h]
  have h00 : pyIndexZ (z :: l) 0 = .ok z := by simp [pyIndexZ]
  constructor
  · rintro ⟨t1, t2⟩
    obtain ⟨w, w1, w2, w3⟩ := pyIndexZ_some (l := z :: l) (i := target) (by rw [hlen]; exact t1) (by rw [hlen]; exact t2)
    have hw : w ∈ z :: l := by
      by_cases h : 0 ≤ target
      · exact List.mem_of_getElem? (w2 h)
      · exact List.mem_of_getElem? (w3 (by omega))
    refine ⟨⟨z :: l, C, z.re, w.re⟩, ?_, ⟨hlen, hpos, hrk⟩, s2, ?_, ⟨?_, ?_⟩, ?_, ?_, ?_, ?_⟩
    · unfold qsdRun
      rw [s1, except_ok_bind]
      simp only
      rw [h00, except_ok_bind, w1, except_ok_bind]; rfl
    · rw [← real z (by simp)]; rfl
    · intro h; rw [← real w hw]; exact w2 h
    · intro h; rw [← real w hw, ← hlen]; exact w3 h
    · intro u hu
      obtain ⟨c, c1, c2, -⟩ := s4 u hu
      exact ⟨c, c1, c2⟩
    · intro E0 h0
      obtain ⟨-, -, -, -, a⟩ := s4 z (by simp)
      obtain ⟨-, -, -, -, b⟩ := s4 w hw
      exact ⟨a E0 h0, b E0 h0⟩
    · intro h1r
      obtain ⟨e0, C0, g1, g2, g3⟩ := C83_ritz hE hH hG
      obtain ⟨C1, g4, g5⟩ := C76_sorted_vectors_partial eig k M.1 M.2 e0 C0 g2 g1 (by
        have : e0.length = 1 := g2.trans h1r
        obtain ⟨x, rfl⟩ := List.length_eq_one_iff.1 this
        simp)
      rw [s1] at g4
      cases g4
      intro i hi j hj
      have := g3 i hi j hj
      simp only [spanState, g5 _ i hi, g5 _ j hj] at this ⊢
      exact this
    · intro hr c hc
      have hfull : ∀ u ∈ (eig k M.1).1, 1e-15 < u.re := by
        have : (eig k M.1).1.filter (fun z => open Classical in decide (1e-15 < z.re)) = (eig k M.1).1 :=
          List.filter_sublist.eq_of_length (by rw [(hE k M.1 hSh).1.1]; exact hr)
        intro u hu
        simpa using List.filter_eq_self.1 this u hu
      obtain ⟨e', C', z', o1, o2, -, o4⟩ := C83_optimal hE hH hG hfull hk
      rw [s1] at o1
      cases o1
      obtain rfl : z = z' := by simpa using o2
      exact o4 c hc
  · intro hn
    have : pyIndexZ (z :: l) target = .error .indexError := by
      unfold pyIndexZ
      rw [hlen]
      by_cases h : 0 ≤ target
      · rw [if_pos h, List.getElem?_eq_none (by rw [hlen]; omega)]; rfl
      · rw [if_neg h, if_neg (by omega)]
    unfold qsdRun
    rw [s1, except_ok_bind]
    simp only
    rw [h00, except_ok_bind, this]; rfl

/-- the Trotter state of time zero is the start -/
theorem trotterState_zero {H : QubitOperator} {N : ℤ} {Φ ψ : St} (h : TrotterState H N 0 Φ ψ) : ψ = Φ := by
  have h0 : TrotterState H N 0 Φ Φ := by
    refine ⟨H.map fun _ => 1, ?_, ?_⟩
    · rw [List.forall₂_map_right_iff]
      refine List.forall₂_same.2 fun t _ => ?_
      have := isExp_zero
      simpa using this
    · have : applyInOrder (H.map fun _ => (1 : Op)) = 1 := by
        clear h
        induction H with
        | nil => rfl
        | cons t H ih => simp_all [applyInOrder]
      rw [this, one_pow]; rfl
  exact h.unique h0

/-- C83: SRQK.  The reported ground-state energy is never below the exact one, and, unless a direction was dropped, never above the energy of the reference. -/
theorem C83_srqk {eig : EigOracle} (hE : DescEig eig) (A : QkAlg) (hA : A.Ready) (hp : ∀ g ∈ A.uprep, ApiGate g) (h0 : 1 ≤ A.nstates) (target : ℤ) :
    ∃ (S H : NMat) (ψ : ℕ → St) (rank : ℕ), A.srqkMats = .ok (S, H) ∧ rank = ((eig A.nstates S).1.filter fun z => open Classical in decide (1e-15 < z.re)).length ∧
      ψ 0 = A.uprep.op (Computer.init A.nqb).psi ∧ (∀ m : ℕ, TrotterState A.ham A.trotterNumber (m * A.dt) (ψ 0) (ψ m) ∧ inner A.nqb (ψ m) (ψ m) = 1) ∧
      (-(rank : ℤ) ≤ target ∧ target < rank → ∃ R, A.srqkRun eig target = .ok R ∧ QsdOk A.nqb A.nstates A.ham.op ψ rank target R ∧
        (rank = A.nstates → R.egs ≤ energy A.nqb A.ham.op (A.uprep.op (Computer.init A.nqb).psi))) ∧
      (¬(-(rank : ℤ) ≤ target ∧ target < rank) → A.srqkRun eig target = .error .indexError) := by
  obtain ⟨S, H, ψ, e, hψ, hM⟩ := C77_srqk A hA h0
  have z0 : ψ 0 = A.uprep.op (Computer.init A.nqb).psi := by
    have := hψ 0
    rw [Nat.cast_zero, zero_mul] at this
    exact trotterState_zero this
  have n1 : ∀ m, inner A.nqb (ψ m) (ψ m) = 1 := by
    intro m
    rw [QiteAlg.trotterState_norm hA.ham (hψ m), inner_circuit hA.prep.1 (fun g hg => C02_unitary (hp g hg)), init_psi]
    simp [inner]
  have hG : GramOf A.nqb A.nstates A.ham.op ψ (S, H).1 (S, H).2 := ⟨fun i hi j hj => (hM i hi j hj).1, fun i hi j hj => (hM i hi j hj).2⟩
  obtain ⟨r1, r2⟩ := C83_common_run hE (hermitian_of_real hA.ham) hG (fun i _ => n1 i) h0 target
  have hrun : A.srqkRun eig target = qsdRun eig A.nstates target (S, H) := by
    unfold QkAlg.srqkRun; rw [e, except_ok_bind]
  refine ⟨S, H, ψ, _, e, rfl, z0, fun m => ⟨by rw [z0]; exact hψ m, n1 m⟩, fun ht => ?_, fun ht => ?_⟩
  · obtain ⟨R, e1, hR⟩ := r1 ht
    refine ⟨R, by rw [hrun]; exact e1, hR, fun hr => ?_⟩
    rw [← z0]; exact hR.below hr (by omega) (n1 0)
  · rw [hrun]; exact r2 ht

/-- the states whose overlaps and Hamiltonian matrix elements the matrices of MRSQK are -/
theorem mrsqk_gram (A : QkAlg) (hA : A.Ready) (refs : List (List ℕ)) (hR : ∀ r ∈ refs, Occ r ∧ r.length = A.nqb ∧ 1 ∈ r) (hne : refs ≠ []) (h0 : 1 ≤ A.nstates) :
    ∃ (S H : NMat) (ψ : List ℕ → ℕ → St) (φ : ℕ → St), A.mrsqkMats refs = .ok (S, H) ∧ (∀ r ∈ refs, ψ r 0 = Pi.single (refIndex r) 1) ∧
      (∀ r ∈ refs, ∀ m : ℕ, TrotterState A.ham A.trotterNumber (m * A.dt) (Pi.single (refIndex r) 1) (ψ r m)) ∧
      (∀ i r, refs[i]? = some r → ∀ m < A.nstates, φ (i * A.nstates + m) = ψ r m) ∧ GramOf A.nqb (refs.length * A.nstates) A.ham.op φ S H ∧
      (∀ p < refs.length * A.nstates, inner A.nqb (φ p) (φ p) = 1) ∧ 1 ≤ refs.length * A.nstates := by
  obtain ⟨S, H, ψ, e, hψ, hM⟩ := C77_mrsqk A hA refs hR
  have z0 : ∀ r ∈ refs, ψ r 0 = Pi.single (refIndex r) 1 := by
    intro r hr
    have := hψ r hr 0
    rw [Nat.cast_zero, zero_mul] at this
    exact trotterState_zero this
  have lt : ∀ r ∈ refs, refIndex r < 2 ^ A.nqb := fun r hr => by
    rw [← (hR r hr).2.1]; exact refIndex_lt (hR r hr).1
  have n1 : ∀ r ∈ refs, ∀ m, inner A.nqb (ψ r m) (ψ r m) = 1 := by
    intro r hr m
    rw [QiteAlg.trotterState_norm hA.ham (hψ r hr m)]
    simp [inner, Pi.single_apply, lt r hr]
  let φ : ℕ → St := fun p => ψ (refs.getD (p / A.nstates) []) (p % A.nstates)
  have split : ∀ p < refs.length * A.nstates, ∃ r, refs[p / A.nstates]? = some r ∧ r ∈ refs ∧ p % A.nstates < A.nstates ∧ p / A.nstates * A.nstates + p % A.nstates = p ∧
      φ p = ψ r (p % A.nstates) := by
    intro p hp
    have h1 : p / A.nstates < refs.length := Nat.div_lt_of_lt_mul (by rwa [mul_comm])
    refine ⟨refs[p / A.nstates], List.getElem?_eq_getElem h1, List.getElem_mem h1, Nat.mod_lt _ (by omega), Nat.div_add_mod' p _, ?_⟩
    show ψ (refs.getD (p / A.nstates) []) (p % A.nstates) = _
    rw [List.getD_eq_getElem _ _ h1]
  have hG : GramOf A.nqb (refs.length * A.nstates) A.ham.op φ (S, H).1 (S, H).2 := by
    constructor <;>
    · intro p hp q hq
      obtain ⟨r, r1, r2, r3, r4, r5⟩ := split p hp
      obtain ⟨s, s1, s2, s3, s4, s5⟩ := split q hq
      have := hM _ _ r s r1 s1 _ r3 _ s3
      rw [r4, s4] at this
      rw [r5, s5]
      first | exact this.1 | exact this.2
  have hk : 1 ≤ refs.length * A.nstates := Nat.mul_pos (List.length_pos_iff.2 hne) h0
  have nφ : ∀ p < refs.length * A.nstates, inner A.nqb (φ p) (φ p) = 1 := by
    intro p hp
    obtain ⟨r, r1, r2, r3, r4, r5⟩ := split p hp
    rw [r5]; exact n1 r r2 _
  have atφ : ∀ i r, refs[i]? = some r → ∀ m < A.nstates, φ (i * A.nstates + m) = ψ r m := by
    intro i r hi m hm
    show ψ (refs.getD ((i * A.nstates + m) / A.nstates) []) ((i * A.nstates + m) % A.nstates) = _
    rw [mul_comm, Nat.mul_add_div (by omega), Nat.div_eq_of_lt hm, Nat.mul_add_mod, Nat.mod_eq_of_lt hm, add_zero, List.getD_eq_getElem?_getD, hi]; rfl
  exact ⟨S, H, ψ, φ, e, z0, hψ, atφ, hG, nφ, hk⟩

/-- C83: MRSQK with determinants as references. -/
theorem C83_mrsqk {eig : EigOracle} (hE : DescEig eig) (A : QkAlg) (hA : A.Ready) (refs : List (List ℕ)) (hR : ∀ r ∈ refs, Occ r ∧ r.length = A.nqb ∧ 1 ∈ r)
    (hne : refs ≠ []) (h0 : 1 ≤ A.nstates) (target : ℤ) :
    ∃ (S H : NMat) (ψ : List ℕ → ℕ → St) (φ : ℕ → St) (rank : ℕ), A.mrsqkMats refs = .ok (S, H) ∧
      rank = ((eig (refs.length * A.nstates) S).1.filter fun z => open Classical in decide (1e-15 < z.re)).length ∧
      (∀ r ∈ refs, ψ r 0 = Pi.single (refIndex r) 1 ∧ ∀ m : ℕ, TrotterState A.ham A.trotterNumber (m * A.dt) (ψ r 0) (ψ r m)) ∧
      (∀ i r, refs[i]? = some r → ∀ m < A.nstates, φ (i * A.nstates + m) = ψ r m) ∧
      (-(rank : ℤ) ≤ target ∧ target < rank → ∃ R, A.mrsqkRun eig refs target = .ok R ∧ QsdOk A.nqb (refs.length * A.nstates) A.ham.op φ rank target R ∧
        (rank = refs.length * A.nstates → ∀ r ∈ refs, R.egs ≤ energy A.nqb A.ham.op (Pi.single (refIndex r) 1))) ∧
      (¬(-(rank : ℤ) ≤ target ∧ target < rank) → A.mrsqkRun eig refs target = .error .indexError) := by
  obtain ⟨S, H, ψ, φ, e, z0, hψ, atφ, hG, nφ, hk⟩ := mrsqk_gram A hA refs hR hne h0
  obtain ⟨r1, r2⟩ := C83_common_run (M := (S, H)) hE (hermitian_of_real hA.ham) hG nφ hk target
  have hrun : A.mrsqkRun eig refs target = qsdRun eig (refs.length * A.nstates) target (S, H) := by
    unfold QkAlg.mrsqkRun; rw [e, except_ok_bind]
  refine ⟨S, H, ψ, φ, _, e, rfl, fun r hr => ⟨z0 r hr, fun m => by rw [z0 r hr]; exact hψ r hr m⟩, atφ, fun ht => ?_, fun ht => ?_⟩
  · obtain ⟨R, e1, hR'⟩ := r1 ht
    refine ⟨R, by rw [hrun]; exact e1, hR', fun hr r hm => ?_⟩
    obtain ⟨i, hi, rfl⟩ := List.getElem_of_mem hm
    have e2 := atφ i refs[i] (List.getElem?_eq_getElem hi) 0 (by omega)
    rw [add_zero] at e2
    have hlt : i * A.nstates < refs.length * A.nstates := Nat.mul_lt_mul_of_pos_right hi (by omega)
    rw [← z0 _ hm, ← e2]
    exact hR'.below hr hlt (nφ _ hlt)
  · rw [hrun]; exact r2 ht

end QF
