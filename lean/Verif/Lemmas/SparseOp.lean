import Verif.Lemmas.SparseGate
import Verif.Lemmas.PauliGates
import Verif.Lemmas.QubitOperator
import Mathlib.Algebra.Order.Chebyshev

namespace QF

/-! ### exactness for Pauli strings -/

/-- amplitudes are 0 or of modulus 1 -/
def UZ (φ : St) : Prop := ∀ I, φ I = 0 ∨ ‖φ I‖ = 1

theorem UZ.single (J : ℕ) : UZ (Pi.single J 1) := by
  intro I
  rw [Pi.single_apply]
  split_ifs
  · right; simp
  · left; rfl

theorem UZ.pauli {φ : St} (h : UZ φ) {g : Gate} (hg : PauliGate g) : UZ (g.op φ) := by
  rcases hg.cases with e | e | e <;> rw [e]
  · intro I; rw [op_gX, opX_apply]; exact h _
  · intro I; rw [op_gY, opY_apply]
    rcases h (flipBit I g.target) with h | h
    · left; rw [h, mul_zero]
    · right; rw [norm_mul, h]; split_ifs <;> simp
  · intro I; rw [op_gZ, opZ_apply]
    rcases h I with h | h
    · left; rw [h, mul_zero]
    · right; rw [norm_mul, h]; split_ifs <;> simp

theorem pauli_trunc14 {g : Gate} (hg : PauliGate g) : trunc14 g.mat = g.mat := by
  have hm : ∀ a b c d : ℂ, (a = 0 ∨ ‖a‖ = 1) → (b = 0 ∨ ‖b‖ = 1) → (c = 0 ∨ ‖c‖ = 1) → (d = 0 ∨ ‖d‖ = 1) → trunc14 (mat1 a b c d) = mat1 a b c d := by
    have key : ∀ z : ℂ, (z = 0 ∨ ‖z‖ = 1) → (open Classical in if ‖z‖ > 1e-14 then z else 0) = z := by
      intro z hz
      rcases hz with rfl | hz
      · simp
      · rw [if_pos (by rw [hz]; norm_num)]
    intro a b c d ha hb hc hd
    have h0 : (0 : ℂ) = 0 ∨ ‖(0 : ℂ)‖ = 1 := .inl rfl
    funext i j
    unfold trunc14
    apply key
    fin_cases i <;> fin_cases j <;> simp only [mat1] <;> first | exact ha | exact hb | exact hc | exact hd | exact h0
  rcases hg.cases with e | e | e <;> rw [e]
  · exact hm 0 1 1 0 (by simp) (by simp) (by simp) (by simp)
  · exact hm 0 _ _ 0 (by simp) (by simp) (by simp) (by simp)
  · exact hm 1 0 0 (-1) (by simp) (by simp) (by simp) (by simp)

theorem chop_uz {z : ℂ} (h : z = 0 ∨ ‖z‖ = 1) : chop z = z := by
  unfold chop
  rcases h with rfl | h
  · simp
  · rw [if_pos (by rw [h]; norm_num)]

theorem chop_chop (z : ℂ) : chop (chop z) = chop z := by
  unfold chop
  by_cases h : ‖z‖ > 1e-16
  · simp only [if_pos h]
  · simp only [if_neg h]; simp

theorem pauliSparse_ok {n : ℕ} (c : Circuit) (hf : c.Fits n) (hp : PauliCircuit c) :
    ∃ S, c.sparseMatrix n = .ok S ∧ S.OK (2 ^ n) ∧ ∀ I J, I < 2 ^ n → J < 2 ^ n → S.get I J = c.op (Pi.single J 1) I := by
  have loop : ∀ (c : Circuit) (R : SMat) (U : Op), R.OK (2 ^ n) → c.Fits n → PauliCircuit c →
      (∀ J, UZ (U (Pi.single J 1))) → (∀ I J, I < 2 ^ n → J < 2 ^ n → R.get I J = U (Pi.single J 1) I) →
      ∃ S, c.foldlM (fun R g => (do
        let L ← g.sparseMatrix n
        pure (SMat.leftMultiply R L) : Except Exc SMat)) R = .ok S ∧ S.OK (2 ^ n) ∧
        ∀ I J, I < 2 ^ n → J < 2 ^ n → S.get I J = (c.op * U) (Pi.single J 1) I := by
    intro c
    induction c with
    | nil => intro R U hR _ _ _ h; exact ⟨R, rfl, hR, by simpa using h⟩
    | cons g c ih =>
      intro R U hR hf hu hU h
      obtain ⟨ht, hc⟩ := hf g (by simp)
      have hg := hu g (by simp)
      obtain ⟨L, e1, e2, e3⟩ := gate_step hR g ht hc
      obtain ⟨S, f1, f2, f3⟩ := ih (R.leftMultiply L) (g.op * U) e2 (fun x hx => hf x (by simp [hx])) (fun x hx => hu x (by simp [hx]))
        (fun J => by rw [Module.End.mul_apply]; exact (hU J).pauli hg)
        (by
          intro I J hI hJ
          rw [e3 I J hI hJ, pauli_trunc14 hg, matOp_congr ht hc g.mat (ψ := U (Pi.single J 1)) (fun K hK => h K J hK hJ) hI]
          exact chop_uz ((hU J).pauli hg I))
      refine ⟨S, ?_, f2, ?_⟩
      · rw [List.foldlM_cons]; simp only [e1, except_ok_bind, pure, Except.pure] at f1 ⊢; exact f1
      · intro I J hI hJ
        have := f3 I J hI hJ
        rw [Circuit.op_cons, mul_assoc]; exact this
  cases c with
  | nil =>
    obtain ⟨h1, h2⟩ := identity_ok (2 ^ n)
    refine ⟨_, rfl, h1, fun I J hI hJ => ?_⟩
    rw [h2, Circuit.op_nil, Module.End.one_apply, Pi.single_apply]
    simp [hI]
  | cons g gs =>
    obtain ⟨ht, hc⟩ := hf g (by simp)
    have hg := hp g (by simp)
    obtain ⟨R, e1, e2, e3⟩ := gateSparse_ok g n ht hc
    rw [pauli_trunc14 hg] at e3
    obtain ⟨S, f1, f2, f3⟩ := loop gs R g.op e2 (fun x hx => hf x (by simp [hx])) (fun x hx => hp x (by simp [hx]))
      (fun J => (UZ.single J).pauli hg) (fun I J _ hJ => e3 I J hJ)
    refine ⟨S, ?_, f2, f3⟩
    unfold Circuit.sparseMatrix
    simp only [e1, except_ok_bind]; exact f1

/-! ### exceptions -/

theorem gateSparse_error {g : Gate} {n : ℕ} (h : n ≤ g.target ∨ n ≤ g.control) : g.sparseMatrix n = .error .runtimeError := by
  unfold Gate.sparseMatrix
  by_cases h1 : g.target ≥ n
  · rw [if_pos h1]
  · rw [if_neg h1, if_pos (by omega)]

theorem circuitSparse_error {c : Circuit} {n : ℕ} (h : ¬ c.Fits n) : c.sparseMatrix n = .error .runtimeError := by
  have loop : ∀ (c : Circuit) (R : SMat), ¬ c.Fits n → c.foldlM (fun R g => (do
        let L ← g.sparseMatrix n
        pure (SMat.leftMultiply R L) : Except Exc SMat)) R = .error .runtimeError := by
    intro c
    induction c with
    | nil => intro R h; exact absurd (by intro g hg; simp at hg) h
    | cons g c ih =>
      intro R h
      rw [List.foldlM_cons]
      by_cases hg : g.target < n ∧ g.control < n
      · obtain ⟨L, e1, _⟩ := gateSparse_ok g n hg.1 hg.2
        simp only [e1, except_ok_bind, pure, Except.pure] at ih ⊢
        refine ih _ (fun hc => h ?_)
        intro x hx
        rcases List.mem_cons.1 hx with rfl | hx
        · exact hg
        · exact hc x hx
      · rw [gateSparse_error (by omega)]; rfl
  cases c with
  | nil => exact absurd (by intro g hg; simp at hg) h
  | cons g gs =>
    unfold Circuit.sparseMatrix
    by_cases hg : g.target < n ∧ g.control < n
    · obtain ⟨L, e1, _⟩ := gateSparse_ok g n hg.1 hg.2
      simp only [e1, except_ok_bind]
      refine loop gs _ (fun hc => h ?_)
      intro x hx
      rcases List.mem_cons.1 hx with rfl | hx
      · exact hg
      · exact hc x hx
    · simp only [gateSparse_error (show n ≤ g.target ∨ n ≤ g.control by omega), except_error_bind]

/-! ### operators -/

/-- error bound for the columns of the matrix of an operator -/
noncomputable def sparseOpErr (n : ℕ) (A : QubitOperator) : ℝ :=
  (A.map fun t => ‖t.1‖ * sparseErr n t.2.length + 1e-16 * Real.sqrt (2 ^ n)).sum

theorem op_cons' (t : ℂ × Circuit) (A : QubitOperator) : QubitOperator.op (t :: A) = t.1 • t.2.op + QubitOperator.op A := by
  simp [QubitOperator.op]

theorem operatorSparse_loop {n : ℕ} (E : ℂ × Circuit → ℝ) :
    ∀ (A : QubitOperator) (R : SMat) (B : Op) (e : ℝ), R.OK (2 ^ n) → (∀ I J, chop (R.get I J) = R.get I J) →
    (∀ t ∈ A, ∃ S, t.2.sparseMatrix n = .ok S ∧ S.OK (2 ^ n) ∧ ∀ J < 2 ^ n, nrm n ((fun K => S.get K J) - t.2.op (Pi.single J 1)) ≤ E t) →
    (∀ J < 2 ^ n, nrm n ((fun K => R.get K J) - B (Pi.single J 1)) ≤ e) →
    ∃ S, A.foldlM (fun R t => (do
      let L ← t.2.sparseMatrix n
      pure (SMat.add R L t.1) : Except Exc SMat)) R = .ok S ∧ S.OK (2 ^ n) ∧
      ∀ J < 2 ^ n, nrm n ((fun K => S.get K J) - (B + A.op) (Pi.single J 1)) ≤ e + (A.map fun t => ‖t.1‖ * E t + 1e-16 * Real.sqrt (2 ^ n)).sum := by
  intro A
  induction A with
  | nil => intro R B e hR _ _ h; exact ⟨R, rfl, hR, by simpa [QubitOperator.op] using h⟩
  | cons t A ih =>
    intro R B e hR hch hA h
    obtain ⟨L, l1, l2, l3⟩ := hA t (by simp)
    obtain ⟨a1, a2⟩ := add_ok hR l2 t.1 hch
    obtain ⟨S, f1, f2, f3⟩ := ih (R.add L t.1) (B + t.1 • t.2.op) (e + (‖t.1‖ * E t + 1e-16 * Real.sqrt (2 ^ n))) a1
      (fun I J => by rw [a2, chop_chop]) (fun t ht => hA t (by simp [ht]))
      (by
        intro J hJ
        obtain ⟨v, hv⟩ : ∃ v : St, v = fun K => R.get K J := ⟨_, rfl⟩
        obtain ⟨l, hl⟩ : ∃ l : St, l = fun K => L.get K J := ⟨_, rfl⟩
        have h1 := h J hJ
        have h2 := l3 J hJ
        rw [← hv] at h1
        rw [← hl] at h2
        have split : (fun K => (R.add L t.1).get K J) - (B + t.1 • t.2.op) (Pi.single J 1) =
            ((fun K => (R.add L t.1).get K J) - (t.1 • l + v)) + ((v - B (Pi.single J 1)) + t.1 • (l - t.2.op (Pi.single J 1))) := by
          rw [LinearMap.add_apply, LinearMap.smul_apply, smul_sub]; abel
        rw [split]
        refine le_trans (nrm_add_le n _ _) ?_
        have b1 : nrm n ((fun K => (R.add L t.1).get K J) - (t.1 • l + v)) ≤ 1e-16 * Real.sqrt (2 ^ n) := by
          apply nrm_le_entries (by norm_num)
          intro I _
          simp only [Pi.sub_apply, Pi.add_apply, Pi.smul_apply, smul_eq_mul, a2, hl, hv]
          exact chop_near _
        have b2 := nrm_add_le n (v - B (Pi.single J 1)) (t.1 • (l - t.2.op (Pi.single J 1)))
        rw [nrm_smul] at b2
        have b3 := mul_le_mul_of_nonneg_left h2 (norm_nonneg t.1)
        linarith)
    refine ⟨S, ?_, f2, ?_⟩
    · rw [List.foldlM_cons]; simp only [l1, except_ok_bind, pure, Except.pure] at f1 ⊢; exact f1
    · intro J hJ
      have := f3 J hJ
      rw [op_cons', List.map_cons, List.sum_cons, ← add_assoc, ← add_assoc]; exact this

theorem operatorSparse_ok {n : ℕ} {A : QubitOperator} (hne : A ≠ []) (E : ℂ × Circuit → ℝ)
    (hA : ∀ t ∈ A, ∃ S, t.2.sparseMatrix n = .ok S ∧ S.OK (2 ^ n) ∧ ∀ J < 2 ^ n, nrm n ((fun K => S.get K J) - t.2.op (Pi.single J 1)) ≤ E t) :
    ∃ S, A.sparseMatrix n = .ok S ∧ S.OK (2 ^ n) ∧
      ∀ J < 2 ^ n, nrm n ((fun K => S.get K J) - A.op (Pi.single J 1)) ≤ (A.map fun t => ‖t.1‖ * E t + 1e-16 * Real.sqrt (2 ^ n)).sum := by
  have h0 : ∀ I J, SMat.get [] I J = 0 := by intro I J; simp [SMat.get, SMat.row, SVec.get, amGet]
  obtain ⟨S, f1, f2, f3⟩ := operatorSparse_loop E A [] 0 0 (.nil _) (by intro I J; rw [h0]; simp [chop]) hA (by
    intro J _
    have : ((fun K => SMat.get [] K J) - (0 : Op) (Pi.single J 1)) = 0 := by funext K; simp [h0]
    rw [this, nrm_zero])
  refine ⟨S, ?_, f2, ?_⟩
  · unfold QubitOperator.sparseMatrix
    rw [if_neg (by simpa using hne)]; exact f1
  · intro J hJ
    have := f3 J hJ
    rwa [zero_add, zero_add] at this

/-- entrywise version for Pauli operators -/
theorem pauliOpSparse_ok {n : ℕ} {A : QubitOperator} (hne : A ≠ []) (hf : ∀ t ∈ A, t.2.Fits n) (hp : ∀ t ∈ A, PauliCircuit t.2) :
    ∃ S, A.sparseMatrix n = .ok S ∧ S.OK (2 ^ n) ∧
      ∀ I J, I < 2 ^ n → J < 2 ^ n → ‖S.get I J - A.op (Pi.single J 1) I‖ ≤ A.length * 1e-16 := by
  have loop : ∀ (A : QubitOperator) (R : SMat) (B : Op) (e : ℕ), R.OK (2 ^ n) → (∀ I J, chop (R.get I J) = R.get I J) →
      (∀ t ∈ A, t.2.Fits n) → (∀ t ∈ A, PauliCircuit t.2) →
      (∀ I J, I < 2 ^ n → J < 2 ^ n → ‖R.get I J - B (Pi.single J 1) I‖ ≤ e * 1e-16) →
      ∃ S, A.foldlM (fun R t => (do
        let L ← t.2.sparseMatrix n
        pure (SMat.add R L t.1) : Except Exc SMat)) R = .ok S ∧ S.OK (2 ^ n) ∧
        ∀ I J, I < 2 ^ n → J < 2 ^ n → ‖S.get I J - (B + A.op) (Pi.single J 1) I‖ ≤ (e + A.length : ℕ) * 1e-16 := by
    intro A
    induction A with
    | nil => intro R B e hR _ _ _ h; exact ⟨R, rfl, hR, by simpa [QubitOperator.op] using h⟩
    | cons t A ih =>
      intro R B e hR hch hf hp h
      obtain ⟨L, l1, l2, l3⟩ := pauliSparse_ok t.2 (hf t (by simp)) (hp t (by simp))
      obtain ⟨a1, a2⟩ := add_ok hR l2 t.1 hch
      obtain ⟨S, f1, f2, f3⟩ := ih (R.add L t.1) (B + t.1 • t.2.op) (e + 1) a1
        (fun I J => by rw [a2, chop_chop]) (fun t ht => hf t (by simp [ht])) (fun t ht => hp t (by simp [ht]))
        (by
          intro I J hI hJ
          rw [a2, l3 I J hI hJ, LinearMap.add_apply, LinearMap.smul_apply, Pi.add_apply, Pi.smul_apply, smul_eq_mul]
          have h1 := h I J hI hJ
          have h2 := chop_near (t.1 * t.2.op (Pi.single J 1) I + R.get I J)
          push_cast
          calc _ ≤ ‖chop (t.1 * t.2.op (Pi.single J 1) I + R.get I J) - (t.1 * t.2.op (Pi.single J 1) I + R.get I J)‖ + ‖R.get I J - B (Pi.single J 1) I‖ := by
                refine le_trans (le_of_eq ?_) (norm_add_le _ _)
                congr 1; ring
            _ ≤ _ := by linarith)
      refine ⟨S, ?_, f2, ?_⟩
      · rw [List.foldlM_cons]; simp only [l1, except_ok_bind, pure, Except.pure] at f1 ⊢; exact f1
      · intro I J hI hJ
        have := f3 I J hI hJ
        rw [op_cons', List.length_cons, ← add_assoc, show e + (A.length + 1) = e + 1 + A.length by ring]; exact this
  have h0 : ∀ I J, SMat.get [] I J = 0 := by intro I J; simp [SMat.get, SMat.row, SVec.get, amGet]
  obtain ⟨S, f1, f2, f3⟩ := loop A [] 0 0 (.nil _) (by intro I J; rw [h0]; simp [chop]) hf hp (by intro I J _ _; simp [h0])
  refine ⟨S, ?_, f2, ?_⟩
  · unfold QubitOperator.sparseMatrix
    rw [if_neg (by simpa using hne)]; exact f1
  · intro I J hI hJ
    have := f3 I J hI hJ
    rwa [zero_add, Nat.zero_add] at this

/-! ### apply_sparse_matrix -/

theorem applySparse_ok {q : Computer} (hq : q.WF) {S : SMat} (hS : S.OK (2 ^ q.nqubit)) :
    ∃ q', q.applySparseMatrix S = .ok q' ∧ q'.WF ∧ q'.nqubit = q.nqubit ∧
      ∀ I, q'.psi I = ∑ J ∈ Finset.range (2 ^ q.nqubit), S.get I J * q.psi J := by
  have inner : ∀ (r : SVec) (I : ℕ) (res : List ℂ), res.length = 2 ^ q.nqubit → I < 2 ^ q.nqubit → (∀ x ∈ r, x.1 < 2 ^ q.nqubit) →
      ∃ res', r.foldlM (fun res j => (do
        let c ← rd q.coeff j.1
        let r ← rd res I
        wr res I (r + j.2 * c) : Except Exc (List ℂ))) res = .ok res' ∧ res'.length = 2 ^ q.nqubit ∧
        ∀ K, vec res' K = vec res K + if K = I then (r.map fun j => j.2 * q.psi j.1).sum else 0 := by
    intro r I
    induction r with
    | nil => intro res hl _ _; exact ⟨res, rfl, hl, by intro K; simp⟩
    | cons j r ih =>
      intro res hl hI hx
      have hj := hx j (by simp)
      obtain ⟨res', e1, e2, e3⟩ := ih (res.set I (vec res I + j.2 * vec q.coeff j.1)) (by simpa using hl) hI (fun x h => hx x (by simp [h]))
      refine ⟨res', ?_, e2, ?_⟩
      · rw [List.foldlM_cons, rd_ok (by rw [hq.len]; exact hj)]
        simp only [except_ok_bind]
        rw [rd_ok (by rw [hl]; exact hI)]
        simp only [except_ok_bind]
        rw [wr_ok (by rw [hl]; exact hI)]
        exact e1
      · intro K
        rw [e3, vec_set _ (by rw [hl]; exact hI)]
        by_cases h : K = I
        · subst h; simp only [if_true, List.map_cons, List.sum_cons]; unfold Computer.psi; ring
        · simp [h]
  have outer : ∀ (M : SMat) (res : List ℂ), res.length = 2 ^ q.nqubit → (∀ e ∈ M, e.1 < 2 ^ q.nqubit) → (∀ e ∈ M, ∀ x ∈ e.2, x.1 < 2 ^ q.nqubit) →
      ∃ res', M.foldlM (fun res i => i.2.foldlM (fun res j => (do
        let c ← rd q.coeff j.1
        let r ← rd res i.1
        wr res i.1 (r + j.2 * c) : Except Exc (List ℂ))) res) res = .ok res' ∧ res'.length = 2 ^ q.nqubit ∧
        ∀ K, vec res' K = vec res K + (M.map fun e => if K = e.1 then (e.2.map fun j => j.2 * q.psi j.1).sum else 0).sum := by
    intro M
    induction M with
    | nil => intro res hl _ _; exact ⟨res, rfl, hl, by intro K; simp⟩
    | cons e M ih =>
      intro res hl h1 h2
      obtain ⟨r1, a1, a2, a3⟩ := inner e.2 e.1 res hl (h1 e (by simp)) (h2 e (by simp))
      obtain ⟨r2, b1, b2, b3⟩ := ih r1 a2 (fun x h => h1 x (by simp [h])) (fun x h => h2 x (by simp [h]))
      refine ⟨r2, ?_, b2, ?_⟩
      · rw [List.foldlM_cons, a1]; exact b1
      · intro K; rw [b3, a3, List.map_cons, List.sum_cons, add_assoc]
  obtain ⟨res, e1, e2, e3⟩ := outer S (List.replicate q.nbasis 0) (by rw [List.length_replicate, hq.nbasis]) hS.rlt hS.clt
  refine ⟨{ q with coeff := res }, ?_, ⟨hq.nbasis, e2, hq.new⟩, rfl, ?_⟩
  · unfold Computer.applySparseMatrix
    rw [e1]; rfl
  · intro I
    show vec res I = _
    rw [e3, vec_replicate_zero, Pi.zero_apply, zero_add]
    have hrow : ∀ e ∈ S, (e.2.map fun j => j.2 * q.psi j.1).sum = ∑ K ∈ Finset.range (2 ^ q.nqubit), S.get e.1 K * q.psi K := by
      intro e he
      have := row_sum hS he q.psi
      rwa [foldl_add_sum e.2 (fun k => k.2 * q.psi k.1), zero_add] at this
    rw [List.map_congr_left (g := fun e => if I = e.1 then ∑ K ∈ Finset.range (2 ^ q.nqubit), S.get e.1 K * q.psi K else 0)
      (fun e he => by rw [hrow e he])]
    have := am_sum hS.rows hS.rlt (fun k v => v.elim 0 fun _ => if I = k then ∑ K ∈ Finset.range (2 ^ q.nqubit), S.get k K * q.psi K else 0) (by simp)
    simp only [Option.elim_some] at this
    rw [this]
    by_cases hI : I < 2 ^ q.nqubit
    · rw [Finset.sum_eq_single I]
      · rcases hg : amGet S I with _ | r
        · simp only [Option.elim_none]
          have : ∀ J, S.get I J = 0 := by intro J; simp [SMat.get, SMat.row, hg, SVec.get, amGet]
          simp [this]
        · simp
      · intro b _ hb
        rcases amGet S b with _ | r
        · simp
        · simp [Ne.symm hb]
      · intro h; exact absurd (Finset.mem_range.2 hI) h
    · rw [Finset.sum_eq_zero, Finset.sum_eq_zero]
      · intro J _; rw [SMat.get_eq_zero hS (.inl (by omega)), zero_mul]
      · intro k hk
        have := Finset.mem_range.1 hk
        rcases amGet S k with _ | r
        · simp
        · simp only [Option.elim_some]; rw [if_neg (by omega)]

/-- column-wise error to vector error -/
theorem nrm_columns {n : ℕ} (S : ℕ → ℕ → ℂ) (A : Op) (e : ℝ) (he : 0 ≤ e) (φ : St) (hφ : OnReg n φ)
    (h : ∀ J < 2 ^ n, nrm n ((fun K => S K J) - A (Pi.single J 1)) ≤ e) :
    nrm n ((fun I => ∑ J ∈ Finset.range (2 ^ n), S I J * φ J) - A φ) ≤ e * Real.sqrt (2 ^ n) * nrm n φ := by
  have e1 : (fun I => ∑ J ∈ Finset.range (2 ^ n), S I J * φ J) - A φ =
      ∑ J ∈ Finset.range (2 ^ n), φ J • ((fun K => S K J) - A (Pi.single J 1)) := by
    funext I
    rw [Pi.sub_apply, op_columns A (2 ^ n) φ hφ I, Finset.sum_apply, ← Finset.sum_sub_distrib]
    refine Finset.sum_congr rfl (fun J _ => ?_)
    simp only [Pi.smul_apply, Pi.sub_apply, smul_eq_mul]; ring
  rw [e1]
  have tri : ∀ (s : Finset ℕ) (f : ℕ → St), nrm n (∑ J ∈ s, f J) ≤ ∑ J ∈ s, nrm n (f J) := by
    classical
    intro s f
    induction s using Finset.induction_on with
    | empty => simp [nrm_zero]
    | insert a s ha ih =>
      rw [Finset.sum_insert ha, Finset.sum_insert ha]
      exact le_trans (nrm_add_le n _ _) (add_le_add (le_refl _) ih)
  refine le_trans (tri _ _) ?_
  have b : ∑ J ∈ Finset.range (2 ^ n), nrm n (φ J • ((fun K => S K J) - A (Pi.single J 1))) ≤ (∑ J ∈ Finset.range (2 ^ n), ‖φ J‖) * e := by
    rw [Finset.sum_mul]
    refine Finset.sum_le_sum (fun J hJ => ?_)
    rw [nrm_smul]
    exact mul_le_mul_of_nonneg_left (h J (Finset.mem_range.1 hJ)) (norm_nonneg _)
  refine le_trans b ?_
  have cs : ∑ J ∈ Finset.range (2 ^ n), ‖φ J‖ ≤ Real.sqrt (2 ^ n) * nrm n φ := by
    unfold nrm
    rw [← Real.sqrt_mul (by positivity)]
    apply Real.le_sqrt_of_sq_le
    have := sq_sum_le_card_mul_sum_sq (s := Finset.range (2 ^ n)) (f := fun J => ‖φ J‖)
    rw [Finset.card_range] at this
    push_cast at this; exact this
  nlinarith
end QF
