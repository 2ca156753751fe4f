import Verif.Model.Krylov
import Verif.Props.TrotterExact
import Verif.Props.UccGradient3
import Verif.Props.StatePrep
import Verif.Props.Sparse
import Mathlib.Analysis.Matrix.Normed
import Mathlib.Analysis.Normed.Algebra.MatrixExponential

/-!
C77: the overlap and Hamiltonian matrices of the quantum Krylov algorithms.
-/
namespace QF

/-! ### filling the matrices -/

theorem vdot_eq {n : ℕ} {u v : List ℂ} (hu : u.length = 2 ^ n) (hv : v.length = 2 ^ n) : vdot u v = .ok (inner n (vec u) (vec v)) := by
  unfold vdot
  rw [if_pos (by rw [hu, hv])]
  have key : ∀ (u v : List ℂ), u.length = v.length →
      (List.zipWith (fun a b => (starRingEnd ℂ) a * b) u v).sum = ∑ I ∈ Finset.range u.length, (starRingEnd ℂ) (vec u I) * vec v I := by
    intro u
    induction u with
    | nil => intro v _; simp
    | cons a u ih =>
      intro v h
      cases v with
      | nil => simp at h
      | cons b v =>
        rw [List.zipWith_cons_cons, List.sum_cons, List.length_cons, Finset.sum_range_succ', ih v (by simpa using h)]
        simp only [vec, List.getD_cons_succ, List.getD_cons_zero]
        rw [add_comm]
  rw [key u v (by rw [hu, hv]), hu]; rfl

/-- the vectors the matrices are filled from, and the values they must get -/
structure FillData (n k : ℕ) (om hom : List (List ℂ)) (φ ηφ : ℕ → St) : Prop where
  om : ∀ i < k, ∃ u, om[i]? = some u ∧ u.length = 2 ^ n ∧ vec u = φ i
  hom : ∀ i < k, ∃ u, hom[i]? = some u ∧ u.length = 2 ^ n ∧ vec u = ηφ i
  herm : ∀ i < k, ∀ j < k, (starRingEnd ℂ) (inner n (φ i) (ηφ j)) = inner n (φ j) (ηφ i)

theorem fillPairs_ok {n k : ℕ} {om hom : List (List ℂ)} {φ ηφ : ℕ → St} (h : FillData n k om hom φ ηφ) (f : ℕ → ℕ × ℕ) :
    ∀ (L : List ℕ) (M : NMat × NMat), (∀ x ∈ L, (f x).1 < k ∧ (f x).2 < k) → ∃ M',
      L.foldlM (fun M x => fillPair om hom M (f x).1 (f x).2) M = .ok M' ∧
      (∀ i j, (∃ x ∈ L, f x = (i, j) ∨ f x = (j, i)) → M'.1 i j = inner n (φ i) (φ j) ∧ M'.2 i j = inner n (φ i) (ηφ j)) ∧
      (∀ i j, (¬ ∃ x ∈ L, f x = (i, j) ∨ f x = (j, i)) → M'.1 i j = M.1 i j ∧ M'.2 i j = M.2 i j) := by
  intro L
  induction L with
  | nil => intro M _; exact ⟨M, rfl, by simp, by simp⟩
  | cons x L ih =>
    intro M hL
    obtain ⟨hp, hq⟩ := hL x (by simp)
    obtain ⟨u, u1, u2, u3⟩ := h.om _ hp
    obtain ⟨v, v1, v2, v3⟩ := h.om _ hq
    obtain ⟨w, w1, w2, w3⟩ := h.hom _ hq
    have e : fillPair om hom M (f x).1 (f x).2 = .ok
        ((M.1.set (f x).1 (f x).2 (inner n (φ (f x).1) (φ (f x).2))).set (f x).2 (f x).1 (inner n (φ (f x).2) (φ (f x).1)),
         (M.2.set (f x).1 (f x).2 (inner n (φ (f x).1) (ηφ (f x).2))).set (f x).2 (f x).1 (inner n (φ (f x).2) (ηφ (f x).1))) := by
      unfold fillPair
      rw [u1, v1, w1]
      simp only [Option.elim_some, pure, Except.pure, except_ok_bind]
      rw [vdot_eq u2 w2, vdot_eq u2 v2, except_ok_bind, except_ok_bind, u3, v3, w3, inner_conj, h.herm _ hp _ hq]
    obtain ⟨M', e', h1, h2⟩ := ih _ (fun y hy => hL y (by simp [hy]))
    refine ⟨M', ?_, ?_, ?_⟩
    · rw [List.foldlM_cons, e, except_ok_bind]; exact e'
    · rintro i j ⟨y, hy, hf⟩
      by_cases hc : ∃ y ∈ L, f y = (i, j) ∨ f y = (j, i)
      · exact h1 i j hc
      · have hyx : y = x := by
          rcases List.mem_cons.1 hy with hy | hy
          · exact hy
          · exact absurd ⟨y, hy, hf⟩ hc
        subst hyx
        obtain ⟨g1, g2⟩ := h2 i j hc
        rw [g1, g2]
        rcases hf with hf | hf <;> simp only [hf, NMat.set]
        · by_cases hij : i = j <;> simp [hij]
        · simp
    · intro i j hn
      obtain ⟨g1, g2⟩ := h2 i j (fun ⟨y, hy, hf⟩ => hn ⟨y, by simp [hy], hf⟩)
      rw [g1, g2]
      have hx : ¬ (f x = (i, j) ∨ f x = (j, i)) := fun hf => hn ⟨x, by simp, hf⟩
      rw [not_or] at hx
      have a1 : ¬ (i = (f x).2 ∧ j = (f x).1) := fun ⟨a, b⟩ => hx.2 (Prod.ext b.symm a.symm)
      have a2 : ¬ (i = (f x).1 ∧ j = (f x).2) := fun ⟨a, b⟩ => hx.1 (Prod.ext a.symm b.symm)
      simp [NMat.set, a1, a2]

/-! ### the states -/

/-- the Hamiltonian and preparation circuit of a Krylov calculation: real coefficients and Pauli strings on `nqb` qubits -/
structure QkAlg.Ready (A : QkAlg) : Prop where
  prep : A.uprep.Fits A.nqb ∧ ∀ g ∈ A.uprep, ExactGate g
  ham : ∀ t ∈ A.ham, t.1.im = 0 ∧ t.2.PauliString A.nqb
  steps : 0 ≤ A.trotterNumber

/-- `ψ` is the first-order Trotter approximation with `N` steps of `exp(-i τ H) Φ` -/
def TrotterState (H : QubitOperator) (N : ℤ) (τ : ℝ) (Φ ψ : St) : Prop :=
  ∃ Us, List.Forall₂ (fun t U => IsExp ((-Complex.I * τ * t.1 / (N : ℂ)) • t.2.op) U) H Us ∧ ψ = (applyInOrder Us ^ N.toNat) Φ

theorem TrotterState.unique {H : QubitOperator} {N : ℤ} {τ : ℝ} {Φ ψ ψ' : St} (h : TrotterState H N τ Φ ψ) (h' : TrotterState H N τ Φ ψ') : ψ = ψ' := by
  obtain ⟨Us, h1, rfl⟩ := h
  obtain ⟨Vs, h2, rfl⟩ := h'
  have : Us = Vs := by
    clear Φ
    induction h1 generalizing Vs with
    | nil => cases h2; rfl
    | cons h _ ih => cases h2 with
      | cons h' h2 => rw [h.unique h', ih _ h2]
  rw [this]

theorem trotterTerm_of {n : ℕ} {c : Circuit} (h : c.PauliString n) : TrotterTerm c := by
  refine ⟨⟨fun g hg => ⟨.inr (h.gates g hg).letter, (h.gates g hg).make⟩, h.distinct⟩, ?_⟩
  by_cases e : c = []
  · exact .inl e
  · obtain ⟨g, s, rfl⟩ := List.exists_cons_of_ne_nil e
    refine .inr ⟨g, by simp, ?_⟩
    rcases (h.gates g (by simp)).letter with h | h | h <;> rw [h] <;> decide

theorem evolution_ok {A : QkAlg} (hA : A.Ready) (m : ℕ) : ∃ C ph, A.evolution m = .ok (C, ph) ∧ C.Fits A.nqb ∧ (∀ g ∈ C, ExactGate g) ∧
    ∀ Φ : St, TrotterState A.ham A.trotterNumber (m * A.dt) Φ (ph • C.op Φ) := by
  by_cases hm : 0 < m
  · obtain ⟨C, ph, Us, h1, h2, h3, h4⟩ := trotterize_fits A.nqb A.ham (-Complex.I * m * A.dt) A.trotterNumber 1 le_rfl hA.steps
      (fun t ht => trotterTerm_of (hA.ham t ht).2) (fun t ht g hg => ((hA.ham t ht).2.fits g hg).1) (fun t ht => by
        have := (hA.ham t ht).1
        simp [this])
    refine ⟨C, ph, ?_, fun g hg => (h4 g hg).2, fun g hg => (h4 g hg).1.2, fun Φ => ⟨Us, ?_, ?_⟩⟩
    · unfold QkAlg.evolution; rw [if_pos hm, h1]
    · refine h2.imp ?_
      intro t U h
      convert! h using 3
      push_cast; ring
    · rw [← h3]; rfl
  · obtain rfl : m = 0 := by omega
    refine ⟨[], 1, rfl, by intro g hg; simp at hg, by simp, fun Φ => ⟨A.ham.map fun _ => 1, ?_, ?_⟩⟩
    · rw [List.forall₂_map_right_iff]
      refine List.forall₂_same.2 fun t _ => ?_
      simpa using isExp_zero
    · have : ∀ l : QubitOperator, applyInOrder (l.map fun _ => 1) = 1 := by
        intro l
        induction l with
        | nil => rfl
        | cons t l ih => rw [List.map_cons, applyInOrder, ih, mul_one]
      rw [this, one_pow, one_smul]; rfl

theorem omega_ok {A : QkAlg} (hA : A.Ready) {prep : Circuit} (hp : prep.Fits A.nqb ∧ ∀ g ∈ prep, ExactGate g) (m : ℕ) :
    ∃ w hw, A.omega prep m = .ok (w, hw) ∧ w.length = 2 ^ A.nqb ∧ hw.length = 2 ^ A.nqb ∧ vec hw = A.ham.op (vec w) ∧
      TrotterState A.ham A.trotterNumber (m * A.dt) (prep.op (Computer.init A.nqb).psi) (vec w) := by
  obtain ⟨C, ph, e1, f1, x1, t1⟩ := evolution_ok hA m
  obtain ⟨q, e2, w2, n2, p2⟩ := applyCircuit_exact (q := Computer.init A.nqb) (prep ++ C) (Computer.WF.init _) (by
    intro g hg
    rcases List.mem_append.1 hg with hg | hg
    · exact hp.1 g hg
    · exact f1 g hg) (by
    intro g hg
    rcases List.mem_append.1 hg with hg | hg
    · exact hp.2 g hg
    · exact x1 g hg)
  have n2 : q.nqubit = A.nqb := n2
  have w3 : (q.applyConstant ph).WF := ⟨w2.nbasis, by simp [Computer.applyConstant, w2.len], w2.new⟩
  have p3 : (q.applyConstant ph).psi = ph • q.psi := vec_map_mul _ _
  obtain ⟨q', e4, w4, n4, p4⟩ := C24_apply_operator (q.applyConstant ph) A.ham w3 (fun t ht => by
    have := (hA.ham t ht).2
    refine ⟨?_, fun g hg => (this.gates g hg).exact⟩
    show t.2.Fits q.nqubit
    rw [n2]; exact this.fits)
  have n4 : q'.nqubit = A.nqb := by rw [n4]; exact n2
  refine ⟨(q.applyConstant ph).coeff, q'.coeff, ?_, ?_, ?_, ?_, ?_⟩
  · unfold QkAlg.omega
    simp only [e1, except_ok_bind, addCircuit_eq, e2, e4, pure, Except.pure]
  · rw [w3.len]; show 2 ^ q.nqubit = _; rw [n2]
  · rw [w4.len, n4]
  · exact p4
  · show TrotterState _ _ _ _ (q.applyConstant ph).psi
    rw [p3, p2, Circuit.op_append]
    exact t1 _

/-! ### SRQK -/

/-- the loop of `SRQK.build_qk_mats_fast()`: the vectors it collects and the matrices it fills -/
theorem srqk_loop (A : QkAlg) (hA : A.Ready) : ∃ w hw : ℕ → List ℂ, (∀ m, (w m).length = 2 ^ A.nqb) ∧
    (∀ m : ℕ, TrotterState A.ham A.trotterNumber (m * A.dt) (A.uprep.op (Computer.init A.nqb).psi) (vec (w m))) ∧
    ∀ k, ∃ M, (List.range k).foldlM A.srqkStep ([], [], zeroMats) = .ok ((List.range k).map w, (List.range k).map hw, M) ∧
      ∀ m < k, ∀ n < k, M.1 m n = inner A.nqb (vec (w m)) (vec (w n)) ∧ M.2 m n = inner A.nqb (vec (w m)) (A.ham.op (vec (w n))) := by
  choose w hw e l1 l2 v1 v2 using fun m => omega_ok hA hA.prep m
  have hH := hermitian_of_real hA.ham
  have data : ∀ k, FillData A.nqb k ((List.range k).map w) ((List.range k).map hw) (fun m => vec (w m)) (fun m => A.ham.op (vec (w m))) := by
    intro k
    refine ⟨fun i hi => ⟨w i, by simp [hi], l1 i, rfl⟩, fun i hi => ⟨hw i, by simp [hi], l2 i, v1 i⟩, fun i _ j _ => ?_⟩
    rw [inner_conj]
    exact (hH _ _).symm
  have loop : ∀ k, ∃ M, (List.range k).foldlM A.srqkStep ([], [], zeroMats) = .ok ((List.range k).map w, (List.range k).map hw, M) ∧
      ∀ m < k, ∀ n < k, M.1 m n = inner A.nqb (vec (w m)) (vec (w n)) ∧ M.2 m n = inner A.nqb (vec (w m)) (A.ham.op (vec (w n))) := by
    intro k
    induction k with
    | zero => exact ⟨zeroMats, rfl, by omega⟩
    | succ k ih =>
      obtain ⟨M, f, hM⟩ := ih
      obtain ⟨M', f', g1, g2⟩ := fillPairs_ok (data (k + 1)) (fun n => (k, n)) (List.range (k + 1)) M (by
        intro x hx; exact ⟨by simp, List.mem_range.1 hx⟩)
      refine ⟨M', ?_, ?_⟩
      · rw [List.range_succ, List.foldlM_append, f, except_ok_bind, List.foldlM_cons]
        unfold QkAlg.srqkStep
        simp only [e, except_ok_bind]
        rw [show (List.range k).map w ++ [w k] = (List.range (k + 1)).map w by rw [List.range_succ, List.map_append]; rfl,
          show (List.range k).map hw ++ [hw k] = (List.range (k + 1)).map hw by rw [List.range_succ, List.map_append]; rfl,
          List.length_map, List.length_range, f', except_ok_bind, List.range_succ]
        rfl
      · intro m hm n hn
        by_cases hc : m = k ∨ n = k
        · refine g1 m n ?_
          rcases hc with rfl | rfl
          · exact ⟨n, List.mem_range.2 hn, .inl rfl⟩
          · exact ⟨m, List.mem_range.2 hm, .inr rfl⟩
        · obtain ⟨a, b⟩ := g2 m n (by
            rintro ⟨x, _, hx | hx⟩ <;> simp only [Prod.mk.injEq] at hx <;> omega)
          rw [a, b]
          exact hM m (by omega) n (by omega)
  exact ⟨w, hw, l1, v2, loop⟩

/-- C77: the matrices of `SRQK.build_qk_mats_fast()` are the overlap and Hamiltonian matrices of the states
`ψ_m = (∏_l exp(-i m dt c_l P_l / N))^N Uprep|0⟩`, `m = 0, …, nstates - 1`, in both triangles. -/
theorem C77_srqk (A : QkAlg) (hA : A.Ready) (h0 : 1 ≤ A.nstates) : ∃ (S H : NMat) (ψ : ℕ → St), A.srqkMats = .ok (S, H) ∧
    (∀ m : ℕ, TrotterState A.ham A.trotterNumber (m * A.dt) (A.uprep.op (Computer.init A.nqb).psi) (ψ m)) ∧
    ∀ m < A.nstates, ∀ n < A.nstates, S m n = inner A.nqb (ψ m) (ψ n) ∧ H m n = inner A.nqb (ψ m) (A.ham.op (ψ n)) := by
  obtain ⟨w, hw, -, v2, loop⟩ := srqk_loop A hA
  obtain ⟨M, f, hM⟩ := loop A.nstates
  refine ⟨M.1, M.2, fun m => vec (w m), ?_, v2, hM⟩
  unfold QkAlg.srqkMats
  rw [if_neg (by omega), f, except_ok_bind]; rfl

/-- C77: if the terms of the Hamiltonian commute with each other and there is at least one Trotter step, the states are exactly
`exp(-i m dt H) Uprep|0⟩`. -/
theorem C77_commuting (H : QubitOperator) (n : ℕ) (hH : ∀ t ∈ H, t.2.PauliString n) (hc : ∀ s ∈ H, ∀ t ∈ H, Commute s.2.op t.2.op)
    (N : ℤ) (hN : 1 ≤ N) (τ : ℝ) (Φ ψ : St) (h : TrotterState H N τ Φ ψ) : ∃ U, IsExp ((-Complex.I * τ) • H.op) U ∧ ψ = U Φ := by
  obtain ⟨Us, h2, rfl⟩ := h
  refine ⟨applyInOrder Us ^ N.toNat, ?_, rfl⟩
  exact trotter_commuting H _ N hN (fun t ht => (trotterTerm_of (hH t ht)).1) hc Us h2

/-! ### MRSQK -/

/-- the X gates of the occupied orbitals -/
noncomputable def occGates (ref : List ℕ) : Circuit := (ref.zipIdx.filter fun p => p.1 ≠ 0).map fun p => gX p.2

theorem occGates_fits (ref : List ℕ) : (occGates ref).Fits ref.length ∧ ∀ g ∈ occGates ref, ExactGate g := by
  have hmem : ∀ g ∈ occGates ref, ∃ t < ref.length, g = gX t := by
    intro g hg
    obtain ⟨p, hp, rfl⟩ := List.mem_map.1 hg
    exact ⟨p.2, by simpa using List.snd_lt_of_mem_zipIdx (List.mem_of_mem_filter hp), rfl⟩
  refine ⟨fun g hg => ?_, fun g hg => ?_⟩
  · obtain ⟨t, ht, rfl⟩ := hmem g hg; exact ⟨ht, ht⟩
  · obtain ⟨t, ht, rfl⟩ := hmem g hg; exact (C08_hypotheses_constant_gates (make_X t 0) rfl).1

theorem detPrep_ok (A : QkAlg) (ref : List ℕ) (hO : Occ ref) (hl : ref.length = A.nqb) (old : Option ℂ) :
    A.detPrep ref old = .ok (occGates ref, if 1 ∈ ref then some 1 else old) := by
  have key : ∀ k ≤ ref.length, (List.range k).foldlM (fun (s : Circuit × Option ℂ) j => (do
      let b ← (ref[j]?).elim (.error .indexError) pure
      if b = 1 then do
        let x ← makeGate "X" j j 0
        pure (s.1.addGate x, some 1)
      else pure s : Except Exc (Circuit × Option ℂ))) ([], old) = .ok (occGates (ref.take k), if 1 ∈ ref.take k then some 1 else old) := by
    intro k hk
    induction k with
    | zero => rfl
    | succ k ih =>
      have hk' : k < ref.length := by omega
      rw [List.range_succ, List.foldlM_append, ih (by omega), except_ok_bind, List.foldlM_cons]
      have ht : ref.take (k + 1) = ref.take k ++ [ref[k]] := by rw [List.take_succ, List.getElem?_eq_getElem hk']; rfl
      have hz : (ref.take k ++ [ref[k]]).zipIdx = (ref.take k).zipIdx ++ [(ref[k], k)] := by
        rw [List.zipIdx_append]; simp [Nat.min_eq_left hk'.le]
      rw [List.getElem?_eq_getElem hk', ht]
      simp only [Option.elim_some, pure, Except.pure, except_ok_bind]
      have e : occGates (ref.take k ++ [ref[k]]) = occGates (ref.take k) ++ if ref[k] ≠ 0 then [gX k] else [] := by
        unfold occGates
        rw [hz, List.filter_append, List.map_append]
        congr 1
        by_cases h : ref[k] = 0 <;> simp [h]
      rw [e]
      rcases hO ref[k] (List.getElem_mem hk') with h | h
      · simp only [h]
        simp [List.foldlM_nil, pure, Except.pure, except_ok_bind]
      · simp only [h, if_true]
        rw [make_X k 0]
        simp [List.foldlM_nil, pure, Except.pure, except_ok_bind, Circuit.addGate]
  have := key ref.length le_rfl
  rw [List.take_length, hl] at this
  exact this

theorem mrOmega_eq (A : QkAlg) (ref : List ℕ) (hO : Occ ref) (hl : ref.length = A.nqb) (h1 : 1 ∈ ref) (m : ℕ) (old : Option ℂ) {w hw : List ℂ}
    (h : A.omega (occGates ref) m = .ok (w, hw)) : ∃ p, A.mrOmega ref m old = .ok ((w, hw), p) := by
  unfold QkAlg.omega QkAlg.evolution at h
  unfold QkAlg.mrOmega
  rw [detPrep_ok A ref hO hl old, if_pos h1, except_ok_bind]
  by_cases hm : 0 < m
  · simp only [hm, if_true] at h ⊢
    rcases ht : trotterize A.ham (-Complex.I * m * A.dt) A.trotterNumber with e | ⟨C, p⟩
    · simp only [ht] at h; cases h
    · simp only [ht, except_ok_bind, pure, Except.pure] at h ⊢
      rcases hq : (Computer.init A.nqb).applyCircuit ((occGates ref).addCircuit C) with e | q
      · simp only [hq] at h; cases h
      · simp only [hq, except_ok_bind] at h ⊢
        rcases hq2 : (q.applyConstant p).applyOperator A.ham with e | q2
        · simp only [hq2] at h; cases h
        · simp only [hq2, except_ok_bind] at h ⊢
          cases h
          exact ⟨some p, rfl⟩
  · simp only [hm, if_false, pure, Except.pure, except_ok_bind, addCircuit_eq, List.append_nil] at h ⊢
    rcases hq : (Computer.init A.nqb).applyCircuit (occGates ref) with e | q
    · simp only [hq] at h; cases h
    · simp only [hq, except_ok_bind] at h ⊢
      rcases hq2 : (q.applyConstant 1).applyOperator A.ham with e | q2
      · simp only [hq2] at h; cases h
      · simp only [hq2, except_ok_bind] at h ⊢
        cases h
        exact ⟨some 1, rfl⟩

theorem flatMap_range_get {α : Type} (K : ℕ) : ∀ (l : List α) (i m : ℕ) (x : α), l[i]? = some x → m < K →
    (l.flatMap fun a => (List.range K).map fun m => (a, m))[i * K + m]? = some (x, m) := by
  intro l
  induction l with
  | nil => intro i m x h; simp at h
  | cons a l ih =>
    intro i m x h hm
    rw [List.flatMap_cons]
    cases i with
    | zero =>
      simp only [List.getElem?_cons_zero, Option.some.injEq] at h
      subst h
      rw [List.getElem?_append_left (by simpa using hm)]
      simp [hm]
    | succ i =>
      rw [List.getElem?_append_right (by simp; nlinarith)]
      have : (i + 1) * K + m - ((List.range K).map fun m => (a, m)).length = i * K + m := by
        rw [List.length_map, List.length_range, Nat.add_mul, one_mul]; omega
      rw [this]
      exact ih i m x (by simpa using h) hm

/-- C77: the matrices of `MRSQK.build_qk_mats_fast()` for references with at least one electron: the state with number
`i·nstates + m` is the Trotterized evolution of determinant `i` for the time `m·dt`. -/
theorem C77_mrsqk (A : QkAlg) (hA : A.Ready) (refs : List (List ℕ)) (hR : ∀ r ∈ refs, Occ r ∧ r.length = A.nqb ∧ 1 ∈ r) :
    ∃ (S H : NMat) (ψ : List ℕ → ℕ → St), A.mrsqkMats refs = .ok (S, H) ∧
      (∀ r ∈ refs, ∀ m : ℕ, TrotterState A.ham A.trotterNumber (m * A.dt) (Pi.single (refIndex r) 1) (ψ r m)) ∧
      ∀ i j r s, refs[i]? = some r → refs[j]? = some s → ∀ m < A.nstates, ∀ n < A.nstates,
        S (i * A.nstates + m) (j * A.nstates + n) = inner A.nqb (ψ r m) (ψ s n) ∧
        H (i * A.nstates + m) (j * A.nstates + n) = inner A.nqb (ψ r m) (A.ham.op (ψ s n)) := by
  classical
  have hw0 : ∀ r : List ℕ, ∀ m : ℕ, ∃ w hw, r ∈ refs → A.omega (occGates r) m = .ok (w, hw) ∧ w.length = 2 ^ A.nqb ∧ hw.length = 2 ^ A.nqb ∧
      vec hw = A.ham.op (vec w) ∧ TrotterState A.ham A.trotterNumber (m * A.dt) (Pi.single (refIndex r) 1) (vec w) := by
    intro r m
    by_cases hr : r ∈ refs
    · obtain ⟨o1, o2, o3⟩ := hR r hr
      obtain ⟨w, hw, e, l1, l2, v1, v2⟩ := omega_ok hA (prep := occGates r) (by rw [← o2]; exact occGates_fits r) m
      refine ⟨w, hw, fun _ => ⟨e, l1, l2, v1, ?_⟩⟩
      have : (occGates r).op (Computer.init A.nqb).psi = Pi.single (refIndex r) 1 := by
        rw [(C60_init A.nqb).2, occGates, refprep_op r o1 0 0]; simp
      rw [← this]; exact v2
    · exact ⟨[], [], fun h => absurd h hr⟩
  choose w hw hspec using hw0
  let L := refs.flatMap fun ref => (List.range A.nstates).map fun m => (ref, m)
  have hLmem : ∀ x ∈ L, x.1 ∈ refs := by
    intro x hx
    obtain ⟨r, hr, hx⟩ := List.mem_flatMap.1 hx
    obtain ⟨m, _, rfl⟩ := List.mem_map.1 hx
    exact hr
  have hLlen : L.length = refs.length * A.nstates := by simp [L, List.length_flatMap]
  have loop : ∀ (L' : List (List ℕ × ℕ)) (acc : List (List ℂ × List ℂ)) (old : Option ℂ), (∀ x ∈ L', x.1 ∈ refs) → ∃ p,
      L'.foldlM (fun (s : List (List ℂ × List ℂ) × Option ℂ) x => (do
        let (v, p) ← A.mrOmega x.1 x.2 s.2
        pure (s.1 ++ [v], p) : Except Exc (List (List ℂ × List ℂ) × Option ℂ))) (acc, old) =
        .ok (acc ++ L'.map fun x => (w x.1 x.2, hw x.1 x.2), p) := by
    intro L'
    induction L' with
    | nil => intro acc old _; exact ⟨old, by simp [pure, Except.pure]⟩
    | cons x L' ih =>
      intro acc old hx
      have hr := hx x (by simp)
      obtain ⟨o1, o2, o3⟩ := hR _ hr
      obtain ⟨p, e⟩ := mrOmega_eq A x.1 o1 o2 o3 x.2 old (hspec x.1 x.2 hr).1
      obtain ⟨p', e'⟩ := ih (acc ++ [(w x.1 x.2, hw x.1 x.2)]) p (fun y hy => hx y (by simp [hy]))
      refine ⟨p', ?_⟩
      rw [List.foldlM_cons]
      simp only [e, except_ok_bind, pure, Except.pure] at e' ⊢
      rw [e', List.map_cons, List.append_assoc, List.singleton_append]
  obtain ⟨p, eL⟩ := loop L [] none hLmem
  let x : ℕ → List ℕ × ℕ := fun k => L.getD k ([], 0)
  have hx : ∀ k < refs.length * A.nstates, L[k]? = some (x k) ∧ (x k).1 ∈ refs := by
    intro k hk
    have hk' : k < L.length := by omega
    have : L[k]? = some (x k) := by simp [x, List.getD_eq_getElem?_getD, List.getElem?_eq_getElem hk']
    exact ⟨this, hLmem _ (List.mem_of_getElem? this)⟩
  have hH := hermitian_of_real hA.ham
  have data : FillData A.nqb (refs.length * A.nstates) (L.map fun x => w x.1 x.2) (L.map fun x => hw x.1 x.2)
      (fun k => vec (w (x k).1 (x k).2)) (fun k => A.ham.op (vec (w (x k).1 (x k).2))) := by
    refine ⟨fun i hi => ?_, fun i hi => ?_, fun i _ j _ => ?_⟩
    · obtain ⟨a, b⟩ := hx i hi
      exact ⟨_, by rw [List.getElem?_map, a]; rfl, (hspec _ _ b).2.1, rfl⟩
    · obtain ⟨a, b⟩ := hx i hi
      exact ⟨_, by rw [List.getElem?_map, a]; rfl, (hspec _ _ b).2.2.1, (hspec _ _ b).2.2.2.1⟩
    · rw [inner_conj]; exact (hH _ _).symm
  have fill : ∀ k ≤ refs.length * A.nstates, ∃ M, (List.range k).foldlM (fun M p => ((List.range (refs.length * A.nstates)).filter fun q => p ≤ q).foldlM
      (fun M q => fillPair (L.map fun x => w x.1 x.2) (L.map fun x => hw x.1 x.2) M p q) M) zeroMats = .ok M ∧
      ∀ i j, i < refs.length * A.nstates → j < refs.length * A.nstates → i < k ∨ j < k →
        M.1 i j = inner A.nqb (vec (w (x i).1 (x i).2)) (vec (w (x j).1 (x j).2)) ∧
        M.2 i j = inner A.nqb (vec (w (x i).1 (x i).2)) (A.ham.op (vec (w (x j).1 (x j).2))) := by
    intro k hk
    induction k with
    | zero => exact ⟨zeroMats, rfl, by omega⟩
    | succ k ih =>
      obtain ⟨M, f, hM⟩ := ih (by omega)
      obtain ⟨M', f', g1, g2⟩ := fillPairs_ok data (fun q => (k, q)) ((List.range (refs.length * A.nstates)).filter fun q => k ≤ q) M (by
        intro y hy
        exact ⟨by simp; omega, List.mem_range.1 (List.mem_of_mem_filter hy)⟩)
      refine ⟨M', ?_, ?_⟩
      · rw [List.range_succ, List.foldlM_append, f, except_ok_bind, List.foldlM_cons, f', except_ok_bind]; rfl
      · intro i j hi hj hij
        by_cases hc : ∃ y ∈ (List.range (refs.length * A.nstates)).filter (fun q => k ≤ q), (k, y) = (i, j) ∨ (k, y) = (j, i)
        · exact g1 i j hc
        · obtain ⟨a, b⟩ := g2 i j hc
          rw [a, b]
          refine hM i j hi hj ?_
          by_contra hcon
          refine hc ?_
          rcases hij with h | h
          · exact ⟨j, by simp; omega, .inl (by simp; omega)⟩
          · exact ⟨i, by simp; omega, .inr (by simp; omega)⟩
  obtain ⟨M, f, hM⟩ := fill _ le_rfl
  refine ⟨M.1, M.2, fun r m => vec (w r m), ?_, fun r hr m => (hspec r m hr).2.2.2.2, ?_⟩
  · unfold QkAlg.mrsqkMats QkAlg.mrOmegas
    simp only [L] at eL
    rw [eL]
    simp only [except_ok_bind, pure, Except.pure, List.nil_append, List.map_map]
    exact f
  · intro i j r s hi hj m hm n hn
    have a : L[i * A.nstates + m]? = some (r, m) := flatMap_range_get _ _ _ _ _ hi hm
    have b : L[j * A.nstates + n]? = some (s, n) := flatMap_range_get _ _ _ _ _ hj hn
    have la : i * A.nstates + m < refs.length * A.nstates := by rw [← hLlen]; exact (List.getElem?_eq_some_iff.1 a).1
    have lb : j * A.nstates + n < refs.length * A.nstates := by rw [← hLlen]; exact (List.getElem?_eq_some_iff.1 b).1
    have xa : x (i * A.nstates + m) = (r, m) := by simp [x, List.getD_eq_getElem?_getD, a]
    have xb : x (j * A.nstates + n) = (s, n) := by simp [x, List.getD_eq_getElem?_getD, b]
    have := hM _ _ la lb (.inl la)
    rw [xa, xb] at this
    exact this

/-- C77 (finding): with a first reference without electrons `phase1` is unbound and the construction fails. -/
theorem C77_mrsqk_vacuum (A : QkAlg) (hA : A.Ready) (h0 : 1 ≤ A.nstates) (r : List ℕ) (refs : List (List ℕ)) (hO : Occ r) (hl : r.length = A.nqb)
    (h1 : 1 ∉ r) : A.mrsqkMats (r :: refs) = .error .nameError := by
  obtain ⟨q, e, _⟩ := applyCircuit_exact (q := Computer.init A.nqb) (occGates r) (Computer.WF.init _) (by
    show (occGates r).Fits A.nqb
    rw [← hl]; exact (occGates_fits r).1) (occGates_fits r).2
  have e1 : A.mrOmega r 0 none = .error .nameError := by
    unfold QkAlg.mrOmega
    rw [detPrep_ok A r hO hl none, if_neg h1]
    simp only [except_ok_bind, lt_irrefl, if_false, pure, Except.pure, e]
  obtain ⟨K, hK⟩ : ∃ K, A.nstates = K + 1 := ⟨A.nstates - 1, by omega⟩
  unfold QkAlg.mrsqkMats QkAlg.mrOmegas
  rw [List.flatMap_cons, hK, List.range_succ_eq_map, List.map_cons, List.cons_append, List.foldlM_cons]
  simp only [e1]
  rfl

/-! ### NTSRQK -/

/-- `ψ = exp(A) Φ`: every amplitude is the sum of the exponential series -/
def ExpOn (A : Op) (Φ ψ : St) : Prop := ∀ I, HasSum (fun k : ℕ => ((k.factorial : ℂ))⁻¹ * (A ^ k) Φ I) (ψ I)

/-- the `n` by `n` matrix `A` acting on the first `n` amplitudes -/
noncomputable def matAct (n : ℕ) (A : NMat) : Op where
  toFun ψ I := if I < n then ∑ J ∈ Finset.range n, A I J * ψ J else 0
  map_add' φ ψ := by
    funext I
    by_cases h : I < n <;> simp [h, mul_add, Finset.sum_add_distrib]
  map_smul' z ψ := by
    funext I
    by_cases h : I < n
    · simp only [h, if_true, Pi.smul_apply, smul_eq_mul, RingHom.id_apply, Finset.mul_sum]
      exact Finset.sum_congr rfl fun J _ => by ring
    · simp [h]

/-- what scipy documents about `expm_multiply(A, v, start, stop, num, endpoint=True)`: `num` vectors `exp(t_k A) v` at the equally
spaced times `t_k = start + k (stop - start)/(num - 1)` -/
def ExpmContract (expm : ExpmOracle) : Prop := ∀ (n : ℕ) (A : NMat) (v : List ℂ) (a b : ℝ) (num : ℕ), v.length = n → 2 ≤ num →
  ∀ k < num, ∃ row, (expm n A v a b num)[k]? = some row ∧ row.length = n ∧
    ExpOn (((a + k * (b - a) / (num - 1) : ℝ) : ℂ) • matAct n A) (vec v) (vec row)

/-- C77: `NTSRQK.build_qk_mats()` returns the overlap and Hamiltonian matrices of the states
`exp(-i (m dt/(nstates-1)) M) Uprep|0⟩`, where `M` is the sparse matrix of the Hamiltonian (C25, C26): the times are `nstates`
equally spaced points from 0 to `dt`, not the multiples of `dt` that the class documents. -/
theorem C77_ntsrqk (expm : ExpmOracle) (hE : ExpmContract expm) (A : QkAlg) (hA : A.Ready) (hne : A.ham ≠ []) (hq : A.ham.numQubits = A.nqb)
    (h0 : 2 ≤ A.nstates) : ∃ (M : SMat) (S H : NMat) (ψ : ℕ → St), A.ham.sparseMatrix A.nqb = .ok M ∧
      (∀ I J, I < 2 ^ A.nqb → J < 2 ^ A.nqb → ‖M.get I J - A.ham.op (Pi.single J 1) I‖ ≤ A.ham.length * 1e-16) ∧
      A.ntsrqkMats expm = .ok (S, H) ∧
      (∀ m < A.nstates, ExpOn ((-Complex.I * ((m * A.dt / (A.nstates - 1) : ℝ) : ℂ)) • matAct (2 ^ A.nqb) M.get) (A.uprep.op (Computer.init A.nqb).psi) (ψ m)) ∧
      ∀ m < A.nstates, ∀ n < A.nstates, S m n = inner A.nqb (ψ m) (ψ n) ∧ H m n = inner A.nqb (ψ m) (A.ham.op (ψ n)) := by
  obtain ⟨M, s1, s2, s3⟩ := pauliOpSparse_ok (n := A.nqb) hne (fun t ht => (hA.ham t ht).2.fits) (fun t ht => (hA.ham t ht).2.gates)
  obtain ⟨q, e1, w1, n1, p1⟩ := applyCircuit_exact (q := Computer.init A.nqb) A.uprep (Computer.WF.init _) hA.prep.1 hA.prep.2
  have n1 : q.nqubit = A.nqb := n1
  have hlen : q.coeff.length = 2 ^ A.nqb := by rw [w1.len, n1]
  let G : NMat := fun I J => -Complex.I * M.get I J
  let vecs := expm (2 ^ A.nqb) G q.coeff 0 A.dt A.nstates
  have hrow : ∀ m : ℕ, ∃ row, m < A.nstates → vecs[m]? = some row ∧ row.length = 2 ^ A.nqb ∧
      ExpOn (((0 + m * (A.dt - 0) / (A.nstates - 1) : ℝ) : ℂ) • matAct (2 ^ A.nqb) G) (vec q.coeff) (vec row) := by
    intro m
    by_cases hm : m < A.nstates
    · obtain ⟨row, h⟩ := hE (2 ^ A.nqb) G q.coeff 0 A.dt A.nstates hlen h0 m hm
      exact ⟨row, fun _ => h⟩
    · exact ⟨[], fun h => absurd h hm⟩
  choose w hw using hrow
  have hop : ∀ m : ℕ, ∃ q' : Computer, m < A.nstates → ((Computer.init A.nqb).setCoeffVec (w m)).applyOperator A.ham = .ok q' ∧
      q'.coeff.length = 2 ^ A.nqb ∧ vec q'.coeff = A.ham.op (vec (w m)) := by
    intro m
    by_cases hm : m < A.nstates
    · have wf : ((Computer.init A.nqb).setCoeffVec (w m)).WF := ⟨(Computer.WF.init A.nqb).nbasis, (hw m hm).2.1, (Computer.WF.init A.nqb).new⟩
      obtain ⟨q', e4, w4, n4, p4⟩ := C24_apply_operator _ A.ham wf (fun t ht => ⟨(hA.ham t ht).2.fits, fun g hg => ((hA.ham t ht).2.gates g hg).exact⟩)
      exact ⟨q', fun _ => ⟨e4, by rw [w4.len, n4]; rfl, p4⟩⟩
    · exact ⟨Computer.init 0, fun h => absurd h hm⟩
  choose q' hq' using hop
  have hH := hermitian_of_real hA.ham
  have data : ∀ k ≤ A.nstates, FillData A.nqb k ((List.range k).map w) ((List.range k).map fun m => (q' m).coeff) (fun m => vec (w m))
      (fun m => A.ham.op (vec (w m))) := by
    intro k hk
    refine ⟨fun i hi => ⟨w i, by simp [hi], (hw i (by omega)).2.1, rfl⟩, fun i hi => ⟨(q' i).coeff, by simp [hi], (hq' i (by omega)).2.1, (hq' i (by omega)).2.2⟩, fun i _ j _ => ?_⟩
    rw [inner_conj]
    exact (hH _ _).symm
  have loop : ∀ k ≤ A.nstates, ∃ M, (List.range k).foldlM (fun (st : List (List ℂ) × List (List ℂ) × (NMat × NMat)) m => (do
        let v ← (vecs[m]?).elim (.error .indexError) pure
        let q := (Computer.init A.nqb).setCoeffVec v
        let q' ← q.applyOperator A.ham
        let om := st.1 ++ [q.coeff]
        let hom := st.2.1 ++ [q'.coeff]
        let M ← (List.range om.length).foldlM (fun M n => fillPair om hom M m n) st.2.2
        pure (om, hom, M) : Except Exc (List (List ℂ) × List (List ℂ) × (NMat × NMat)))) ([], [], zeroMats) =
          .ok ((List.range k).map w, (List.range k).map fun m => (q' m).coeff, M) ∧
      ∀ m < k, ∀ n < k, M.1 m n = inner A.nqb (vec (w m)) (vec (w n)) ∧ M.2 m n = inner A.nqb (vec (w m)) (A.ham.op (vec (w n))) := by
    intro k hk
    induction k with
    | zero => exact ⟨zeroMats, rfl, by omega⟩
    | succ k ih =>
      obtain ⟨M, f, hM⟩ := ih (by omega)
      obtain ⟨M', f', g1, g2⟩ := fillPairs_ok (data (k + 1) hk) (fun n => (k, n)) (List.range (k + 1)) M (by
        intro x hx; exact ⟨by simp, List.mem_range.1 hx⟩)
      refine ⟨M', ?_, ?_⟩
      · rw [List.range_succ, List.foldlM_append, f, except_ok_bind, List.foldlM_cons, (hw k (by omega)).1]
        simp only [Option.elim_some, pure, Except.pure, except_ok_bind, (hq' k (by omega)).1]
        have hset : ((Computer.init A.nqb).setCoeffVec (w k)).coeff = w k := rfl
        rw [hset, show (List.range k).map w ++ [w k] = (List.range (k + 1)).map w by rw [List.range_succ, List.map_append]; rfl,
          show ((List.range k).map fun m => (q' m).coeff) ++ [(q' k).coeff] = (List.range (k + 1)).map fun m => (q' m).coeff by
            rw [List.range_succ, List.map_append]; rfl,
          List.length_map, List.length_range, f', except_ok_bind, List.range_succ]
        rfl
      · intro m hm n hn
        by_cases hc : m = k ∨ n = k
        · refine g1 m n ?_
          rcases hc with rfl | rfl
          · exact ⟨n, List.mem_range.2 hn, .inl rfl⟩
          · exact ⟨m, List.mem_range.2 hm, .inr rfl⟩
        · obtain ⟨a, b⟩ := g2 m n (by
            rintro ⟨x, _, hx | hx⟩ <;> simp only [Prod.mk.injEq] at hx <;> omega)
          rw [a, b]
          exact hM m (by omega) n (by omega)
  obtain ⟨R, f, hM⟩ := loop A.nstates le_rfl
  refine ⟨M, R.1, R.2, fun m => vec (w m), s1, s3, ?_, ?_, hM⟩
  · unfold QkAlg.ntsrqkMats scipyCsc
    simp only [hq, s1, except_ok_bind, e1, pure, Except.pure]
    rw [if_neg (by simp [hlen])]
    exact congrArg (fun x : Except Exc (List (List ℂ) × List (List ℂ) × (NMat × NMat)) => x >>= fun st => Except.ok st.2.2) f
  · intro m hm
    have h1 := (hw m hm).2.2
    rw [← p1]
    convert! h1 using 1
    refine Op.ext' fun ψ I => ?_
    by_cases hI : I < 2 ^ A.nqb
    · simp only [matAct, G, LinearMap.smul_apply, LinearMap.coe_mk, AddHom.coe_mk, Pi.smul_apply, smul_eq_mul, hI, if_true, Finset.mul_sum]
      refine Finset.sum_congr rfl fun J _ => ?_
      push_cast; ring
    · simp [matAct, hI]

/-- an eigenvector gets the phase `exp z` -/
theorem expOn_eigen {A : Op} {Φ ψ : St} {z : ℂ} (hz : A Φ = z • Φ) (h : ExpOn A Φ ψ) : ψ = Complex.exp z • Φ := by
  have hp : ∀ k : ℕ, (A ^ k) Φ = z ^ k • Φ := by
    intro k
    induction k with
    | zero => simp
    | succ k ih => rw [pow_succ', Module.End.mul_apply, ih, map_smul, hz, smul_smul, pow_succ]
  funext I
  refine (h I).unique ?_
  have h1 : HasSum (fun k : ℕ => ((k.factorial : ℂ))⁻¹ * z ^ k) (Complex.exp z) := by
    rw [Complex.exp_eq_exp_ℂ]
    have := NormedSpace.expSeries_div_hasSum_exp z
    simpa only [div_eq_inv_mul] using this
  have := h1.mul_right (Φ I)
  convert! this using 2
  rename_i k
  rw [hp]; simp [mul_assoc]

theorem matAct_mulVec (n : ℕ) (A : NMat) (z : ℂ) (v : St) (hv : ∀ I, n ≤ I → v I = 0) (k I : ℕ) :
    ((z • matAct n A) ^ k) v I = if h : I < n then ((z • Matrix.of fun i j : Fin n => A i j) ^ k).mulVec (fun j => v j) ⟨I, h⟩ else if k = 0 then v I else 0 := by
  induction k generalizing I with
  | zero =>
    by_cases h : I < n
    · simp [h]
    · simp [h]
  | succ k ih =>
    have hz : ∀ J, n ≤ J → ((z • matAct n A) ^ k) v J = 0 := by
      intro J hJ
      rw [ih, dif_neg (by omega)]
      split_ifs
      · exact hv J hJ
      · rfl
    rw [pow_succ', Module.End.mul_apply]
    by_cases h : I < n
    · rw [dif_pos h, pow_succ', ← Matrix.mulVec_mulVec]
      simp only [LinearMap.smul_apply, matAct, LinearMap.coe_mk, AddHom.coe_mk, Pi.smul_apply, h, if_true, smul_eq_mul]
      rw [Matrix.smul_mulVec, Pi.smul_apply, smul_eq_mul]
      congr 1
      rw [Finset.sum_range, Matrix.mulVec, dotProduct]
      refine Finset.sum_congr rfl fun J _ => ?_
      have := ih J
      rw [dif_pos J.2] at this
      simp only [Matrix.of_apply, matAct] at this ⊢
      rw [this]
    · rw [dif_neg h, if_neg (by omega)]
      simp [matAct, h]

open scoped Matrix.Norms.Operator in
/-- an oracle with this contract exists -/
theorem expm_exists : ∃ expm, ExpmContract expm := by
  classical
  refine ⟨fun n A v a b num => (List.range num).map fun k : ℕ => (List.finRange n).map fun i =>
    (NormedSpace.exp (((a + k * (b - a) / (num - 1) : ℝ) : ℂ) • Matrix.of fun i j : Fin n => A i j)).mulVec (fun j => vec v j) i, ?_⟩
  intro n A v a b num hv hnum k hk
  refine ⟨_, by rw [List.getElem?_map, List.getElem?_range hk]; rfl, by simp, ?_⟩
  intro I
  beta_reduce
  generalize (((a + k * (b - a) / (num - 1) : ℝ) : ℂ)) = z
  have hz : ∀ I, n ≤ I → vec v I = 0 := fun I hI => vec_of_ge (by omega)
  by_cases h : I < n
  · have e : vec ((List.finRange n).map fun i => (NormedSpace.exp (z • Matrix.of fun i j : Fin n => A i j)).mulVec (fun j => vec v j) i) I =
        (NormedSpace.exp (z • Matrix.of fun i j : Fin n => A i j)).mulVec (fun j => vec v j) ⟨I, h⟩ := by
      simp [vec, List.getD_eq_getElem?_getD, h]
    rw [e]
    have h1 := NormedSpace.exp_series_hasSum_exp' (𝕂 := ℂ) (z • Matrix.of fun i j : Fin n => A i j)
    let L : Matrix (Fin n) (Fin n) ℂ →ₗ[ℂ] ℂ :=
      { toFun := fun X => X.mulVec (fun j => vec v j) ⟨I, h⟩, map_add' := by intro X Y; simp [Matrix.add_mulVec], map_smul' := by intro c X; simp [Matrix.smul_mulVec] }
    have h2 := h1.mapL L.toContinuousLinearMap
    convert! h2 using 2
    rename_i j
    rw [matAct_mulVec n A z _ hz, dif_pos h]
    simp only [map_smul, smul_eq_mul]
    rfl
  · have e : vec ((List.finRange n).map fun i => (NormedSpace.exp (z • Matrix.of fun i j : Fin n => A i j)).mulVec (fun j => vec v j) i) I = 0 :=
      vec_of_ge (by simp; omega)
    rw [e]
    convert! hasSum_zero using 2
    rename_i j
    rw [matAct_mulVec n A z _ hz, dif_neg h]
    split_ifs
    · rw [hz I (by omega), mul_zero]
    · simp

/-- a one-qubit instance: `H = Z`, reference `|0⟩`, three states, `dt = 2π` -/
noncomputable def exampleQk : QkAlg := { nqb := 1, ham := [(1, [gZ 0])], nstates := 3, dt := 2 * Real.pi }

theorem exampleQk_ready : exampleQk.Ready := by
  refine ⟨⟨by intro g hg; simp [exampleQk] at hg, by simp [exampleQk]⟩, ?_, by decide⟩
  intro t ht
  simp only [exampleQk, List.mem_cons, List.not_mem_nil, or_false] at ht
  subst ht
  refine ⟨by simp, ⟨?_, by simp, ?_⟩⟩
  · intro g hg
    simp only [List.mem_cons, List.not_mem_nil, or_false] at hg
    subst hg; exact pauliGate_Z 0
  · intro g hg
    simp only [List.mem_cons, List.not_mem_nil, or_false] at hg
    subst hg; simp [gZ, exampleQk]

theorem exampleQk_eigen : exampleQk.ham.op (Pi.single 0 1) = Pi.single 0 1 := by
  have : exampleQk.ham.op = Circuit.op [gZ 0] := by simp [exampleQk, QubitOperator.op]
  rw [this, Circuit.op_cons, Circuit.op_nil, one_mul, op_gZ]
  funext I
  rw [opZ_apply]
  by_cases h : I = 0
  · subst h; simp
  · simp [Pi.single_eq_of_ne h]

/-- C77 (finding): the class documents the states `exp(-i m dt H)Φ`; with `H = Z`, `Φ = |0⟩`, `s = 2` and `dt = 2π` these are all equal,
so `S₀₁ = 1`, but the returned matrix has `S₀₁ = -1`: the second state belongs to the time `dt/s`. -/
theorem C77_ntsrqk_refuted (expm : ExpmOracle) (hE : ExpmContract expm) : ∃ S H, exampleQk.ntsrqkMats expm = .ok (S, H) ∧ S 0 1 = -1 ∧
    ∀ ψ : ℕ → St, (∀ m : ℕ, ExpOn ((-Complex.I * (m * exampleQk.dt : ℝ)) • exampleQk.ham.op) (exampleQk.uprep.op (Computer.init 1).psi) (ψ m)) →
      inner 1 (ψ 0) (ψ 1) = 1 := by
  obtain ⟨M, S, H, φ, s1, _, e, hφ, hS⟩ := C77_ntsrqk expm hE exampleQk exampleQk_ready (by simp [exampleQk]) (by decide) (by decide)
  have h0 : ∀ I J, SMat.get [] I J = 0 := by intro I J; simp [SMat.get, SMat.row, SVec.get, amGet]
  obtain ⟨L, l1, l2, l3⟩ := pauliSparse_ok (n := 1) [gZ 0] (exampleQk_ready.ham (1, [gZ 0]) (by simp [exampleQk])).2.fits
    (exampleQk_ready.ham (1, [gZ 0]) (by simp [exampleQk])).2.gates
  obtain ⟨a1, a2⟩ := add_ok (M := []) (.nil (2 ^ 1)) l2 1 (by intro I J; rw [h0]; simp [chop])
  have hM : M = SMat.add [] L 1 := by
    have : exampleQk.ham.sparseMatrix 1 = .ok (SMat.add [] L 1) := by
      simp only [exampleQk, QubitOperator.sparseMatrix, List.isEmpty_cons, Bool.false_eq_true, if_false, List.foldlM_cons, List.foldlM_nil, l1, except_ok_bind,
        pure, Except.pure]
    rw [show exampleQk.nqb = 1 from rfl, this] at s1
    cases s1; rfl
  have hΦ : exampleQk.uprep.op (Computer.init 1).psi = Pi.single 0 1 := by rw [(C60_init 1).2]; rfl
  have hΦ' : exampleQk.uprep.op (Computer.init exampleQk.nqb).psi = Pi.single 0 1 := hΦ
  have hact : matAct (2 ^ exampleQk.nqb) M.get (Pi.single 0 1) = Pi.single 0 1 := by
    funext I
    show (if I < 2 ^ 1 then ∑ J ∈ Finset.range (2 ^ 1), M.get I J * Pi.single (M := fun _ => ℂ) 0 1 J else 0) = _
    by_cases hI : I < 2 ^ 1
    · rw [if_pos hI, show (2 : ℕ) ^ 1 = 1 + 1 from rfl, Finset.sum_range_succ, Finset.sum_range_one]
      simp only [Pi.single_eq_same, mul_one, ne_eq, one_ne_zero, not_false_eq_true, Pi.single_eq_of_ne, mul_zero, add_zero]
      rw [hM, a2, h0, l3 I 0 hI (by norm_num), one_mul, add_zero, Circuit.op_cons, Circuit.op_nil, one_mul, op_gZ, opZ_apply]
      by_cases h : I = 0
      · subst h
        simp only [Nat.zero_testBit, Bool.false_eq_true, if_false, Pi.single_eq_same, mul_one]
        unfold chop
        rw [if_pos (by rw [norm_one]; norm_num)]
      · simp [Pi.single_eq_of_ne h, chop]
    · rw [if_neg hI, Pi.single_eq_of_ne (by rintro rfl; exact hI (by norm_num))]
  have hin : ∀ a b : ℂ, inner 1 (a • Pi.single 0 1) (b • Pi.single 0 1) = (starRingEnd ℂ) a * b := by
    intro a b
    unfold inner
    rw [show (2 : ℕ) ^ 1 = 1 + 1 from rfl, Finset.sum_range_succ, Finset.sum_range_one]
    simp
  refine ⟨S, H, e, ?_, ?_⟩
  · rw [(hS 0 (by decide) 1 (by decide)).1]
    have k0 := expOn_eigen (z := 0) (by rw [hΦ', LinearMap.smul_apply, hact]; simp) (hφ 0 (by decide))
    have k1 := expOn_eigen (z := -(Real.pi * Complex.I)) (by
      rw [hΦ', LinearMap.smul_apply, hact]
      congr 1
      simp only [exampleQk]
      push_cast
      ring) (hφ 1 (by decide))
    rw [k0, k1, hΦ']
    rw [show exampleQk.nqb = 1 from rfl, hin, Complex.exp_neg, Complex.exp_pi_mul_I]
    norm_num
  · intro ψ hψ
    have k0 := expOn_eigen (z := 0) (by rw [hΦ, LinearMap.smul_apply, exampleQk_eigen]; simp) (hψ 0)
    have k1 := expOn_eigen (z := -(2 * Real.pi * Complex.I)) (by
      rw [hΦ, LinearMap.smul_apply, exampleQk_eigen]
      congr 1
      simp only [exampleQk]
      push_cast
      ring) (hψ 1)
    rw [k0, k1, hΦ, hin, Complex.exp_neg, Complex.exp_two_pi_mul_I]
    simp

/-- C77, a concrete case: two qubits with a two-term Hamiltonian, three determinants. -/
theorem C77_example : ∃ A : QkAlg, A.Ready ∧ 2 ≤ A.ham.length ∧ 1 ≤ A.nstates ∧ A.trotterNumber = 2 ∧
    ∀ r ∈ [[1, 0], [0, 1], [1, 1]], Occ r ∧ r.length = A.nqb ∧ 1 ∈ r := by
  refine ⟨{ nqb := 2, ham := [(0.5, [gX 0, gY 1]), (-1, [gZ 1])], uprep := [gX 1], nstates := 4, dt := 0.1, trotterNumber := 2 }, ⟨⟨?_, ?_⟩, ?_, by decide⟩,
    by decide, by decide, rfl, ?_⟩
  · intro g hg
    simp only [List.mem_cons, List.not_mem_nil, or_false] at hg
    subst hg; simp [gX]
  · intro g hg
    simp only [List.mem_cons, List.not_mem_nil, or_false] at hg
    subst hg; exact (pauliGate_X 1).exact
  · intro t ht
    simp only [List.mem_cons, List.not_mem_nil, or_false] at ht
    rcases ht with rfl | rfl
    · refine ⟨by norm_num, ⟨?_, by simp [gX, gY], ?_⟩⟩
      · intro g hg
        simp only [List.mem_cons, List.not_mem_nil, or_false] at hg
        rcases hg with rfl | rfl
        · exact pauliGate_X 0
        · exact pauliGate_Y 1
      · intro g hg
        simp only [List.mem_cons, List.not_mem_nil, or_false] at hg
        rcases hg with rfl | rfl <;> simp [gX, gY]
    · refine ⟨by norm_num, ⟨?_, by simp, ?_⟩⟩
      · intro g hg
        simp only [List.mem_cons, List.not_mem_nil, or_false] at hg
        subst hg; exact pauliGate_Z 1
      · intro g hg
        simp only [List.mem_cons, List.not_mem_nil, or_false] at hg
        subst hg; simp [gZ]
  · intro r hr
    simp only [List.mem_cons, List.not_mem_nil, or_false] at hr
    rcases hr with rfl | rfl | rfl <;> refine ⟨?_, rfl, by decide⟩ <;> intro x hx <;> simp at hx <;> omega

end QF
