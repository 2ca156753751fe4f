import Verif.Lemmas.Sparse
import Verif.Lemmas.Norm

namespace QF

/-- matrix with the entries of modulus ≤ 1e-14 dropped -/
noncomputable def trunc14 (m : Mat4) : Mat4 := open Classical in fun i j => if ‖m i j‖ > 1e-14 then m i j else 0

theorem op1_single (t : ℕ) (m : M2) (J I : ℕ) : op1 t m (Pi.single J 1) I =
    if setBit I t (J.testBit t) = J then m (I.testBit t) (J.testBit t) else 0 := by
  rw [op1_apply]
  have key : ∀ b, setBit I t b = J → J.testBit t = b := by
    rintro b rfl; rw [testBit_setBit, if_pos rfl]
  have hs : ∀ b, (Pi.single J (1 : ℂ) : St) (setBit I t b) = if setBit I t b = J then 1 else 0 := fun b => Pi.single_apply _ _ _
  rw [hs, hs]
  rcases hJ : J.testBit t
  · have h1 : setBit I t true ≠ J := fun h => by have := key _ h; rw [hJ] at this; cases this
    rw [if_neg h1]
    by_cases h : setBit I t false = J <;> simp [h]
  · have h1 : setBit I t false ≠ J := fun h => by have := key _ h; rw [hJ] at this; cases this
    rw [if_neg h1]
    by_cases h : setBit I t true = J <;> simp [h]

theorem op2_single {t c : ℕ} (htc : t ≠ c) (m : M4) (J I : ℕ) : op2 t c m (Pi.single J 1) I =
    if setBit (setBit I c (J.testBit c)) t (J.testBit t) = J then m (I.testBit c) (I.testBit t) (J.testBit c) (J.testBit t) else 0 := by
  rw [op2_apply]
  have key : ∀ a b, setBit (setBit I c a) t b = J → J.testBit c = a ∧ J.testBit t = b := by
    rintro a b rfl
    constructor
    · rw [testBit_setBit, if_neg (Ne.symm htc), testBit_setBit, if_pos rfl]
    · rw [testBit_setBit, if_pos rfl]
  have hs : ∀ K, (Pi.single J (1 : ℂ) : St) K = if K = J then 1 else 0 := fun K => Pi.single_apply _ _ _
  have hz : ∀ a b, ¬ (J.testBit c = a ∧ J.testBit t = b) → (Pi.single J (1 : ℂ) : St) (setBit (setBit I c a) t b) = 0 := by
    intro a b h; rw [hs, if_neg]; exact fun h' => h (key _ _ h')
  rcases hc : J.testBit c <;> rcases ht : J.testBit t
  · rw [hz false true (by simp [ht]), hz true false (by simp [hc]), hz true true (by simp [hc]), hs]
    by_cases h : setBit (setBit I c false) t false = J <;> simp [h]
  · rw [hz false false (by simp [ht]), hz true false (by simp [hc]), hz true true (by simp [hc]), hs]
    by_cases h : setBit (setBit I c false) t true = J <;> simp [h]
  · rw [hz false true (by simp [ht]), hz false false (by simp [hc]), hz true true (by simp [ht]), hs]
    by_cases h : setBit (setBit I c true) t false = J <;> simp [h]
  · rw [hz false true (by simp [hc]), hz true false (by simp [ht]), hz false false (by simp [hc]), hs]
    by_cases h : setBit (setBit I c true) t true = J <;> simp [h]

theorem mem_bools (b : Bool) : b ∈ [false, true] := by cases b <;> simp
theorem mem_bools2 (b : Bool × Bool) : b ∈ [(false, false), (false, true), (true, false), (true, true)] := by
  obtain ⟨a, b⟩ := b; cases a <;> cases b <;> simp

theorem gateSparse_ok (g : Gate) (n : ℕ) (ht : g.target < n) (hc : g.control < n) :
    ∃ S, g.sparseMatrix n = .ok S ∧ S.OK (2 ^ n) ∧
      ∀ I J, J < 2 ^ n → S.get I J = matOp g.target g.control (trunc14 g.mat) (Pi.single J 1) I := by
  classical
  refine ⟨_, by unfold Gate.sparseMatrix; rw [if_neg (by omega), if_neg (by omega)], ?_⟩
  have main := foldl_writes (N := 2 ^ n) (fun I J => matOp g.target g.control (trunc14 g.mat) (Pi.single J 1) I)
    (g.sparseWrites (2 ^ n)) [] (.nil _) (by
      intro w hw
      unfold Gate.sparseWrites at hw
      by_cases htc : g.target = g.control
      · rw [if_pos htc] at hw
        obtain ⟨i, _, hw⟩ := List.mem_flatMap.1 hw
        obtain ⟨j, _, hw⟩ := List.mem_flatMap.1 hw
        by_cases h : ‖g.mat (ix1 i) (ix1 j)‖ > 1e-14
        · simp only [if_pos h] at hw
          obtain ⟨I, hI, rfl⟩ := List.mem_map.1 hw
          obtain ⟨hI, hj⟩ := List.mem_filter.1 hI
          have hI := List.mem_range.1 hI
          have hj : I.testBit g.target = j := by simpa using hj
          refine ⟨(setBit_lt ht _).2 hI, hI, ?_⟩
          simp only [matOp, if_pos htc, op1_single, setBit_setBit, testBit_setBit, if_true, setBit_eq_self (rfl : I.testBit g.target = _)]
          simp only [hj, toM2, trunc14, if_pos h]
        · simp only [if_neg h] at hw; simp at hw
      · rw [if_neg htc] at hw
        obtain ⟨i, _, hw⟩ := List.mem_flatMap.1 hw
        obtain ⟨j, _, hw⟩ := List.mem_flatMap.1 hw
        by_cases h : ‖g.mat (ix2 i.1 i.2) (ix2 j.1 j.2)‖ > 1e-14
        · simp only [if_pos h] at hw
          obtain ⟨I, hI, rfl⟩ := List.mem_map.1 hw
          obtain ⟨hI, hj⟩ := List.mem_filter.1 hI
          have hI := List.mem_range.1 hI
          simp only [Bool.and_eq_true, beq_iff_eq] at hj
          refine ⟨(setBit_lt hc _).2 ((setBit_lt ht _).2 hI), hI, ?_⟩
          have e : setBit (setBit (setBit (setBit I g.target i.2) g.control i.1) g.control (I.testBit g.control)) g.target (I.testBit g.target) = I := by
            rw [setBit_setBit, setBit_comm _ (Ne.symm htc), setBit_setBit, setBit_eq_self rfl, setBit_eq_self rfl]
          simp only [matOp, op2_single htc, e, if_true, testBit_setBit, if_neg htc]
          simp only [hj, toM4, trunc14, if_pos h]
        · simp only [if_neg h] at hw; simp at hw)
  refine ⟨main.1, fun I J hJ => ?_⟩
  by_cases hm : (I, J) ∈ (g.sparseWrites (2 ^ n)).map fun w => (w.1, w.2.1)
  · exact (main.2 I J).1 hm
  · rw [(main.2 I J).2 hm]
    have h0 : SMat.get [] I J = 0 := by simp [SMat.get, SMat.row, SVec.get, amGet]
    rw [h0]
    by_contra hne
    apply hm
    have hne := Ne.symm hne
    unfold Gate.sparseWrites
    by_cases htc : g.target = g.control
    · simp only [matOp, if_pos htc, op1_single] at hne
      by_cases e : setBit I g.target (J.testBit g.target) = J
      · rw [if_pos e] at hne
        have hx : ‖g.mat (ix1 (I.testBit g.target)) (ix1 (J.testBit g.target))‖ > 1e-14 := by
          by_contra hx; simp only [toM2, trunc14, if_neg hx] at hne; exact hne rfl
        rw [if_pos htc]
        refine List.mem_map.2 ⟨(setBit J g.target (I.testBit g.target), J, g.mat (ix1 (I.testBit g.target)) (ix1 (J.testBit g.target))), List.mem_flatMap.2 ⟨I.testBit g.target, mem_bools _,
          List.mem_flatMap.2 ⟨J.testBit g.target, mem_bools _, ?_⟩⟩, ?_⟩
        · simp only [if_pos hx]
          exact List.mem_map.2 ⟨J, List.mem_filter.2 ⟨List.mem_range.2 hJ, by simp⟩, rfl⟩
        · simp only [Prod.mk.injEq, and_true]
          conv_lhs => rw [← e]
          rw [setBit_setBit, setBit_eq_self rfl]
      · rw [if_neg e] at hne; exact absurd rfl hne
    · simp only [matOp, if_neg htc, op2_single htc] at hne
      by_cases e : setBit (setBit I g.control (J.testBit g.control)) g.target (J.testBit g.target) = J
      · rw [if_pos e] at hne
        have hx : ‖g.mat (ix2 (I.testBit g.control) (I.testBit g.target)) (ix2 (J.testBit g.control) (J.testBit g.target))‖ > 1e-14 := by
          by_contra hx; simp only [toM4, trunc14, if_neg hx] at hne; exact hne rfl
        rw [if_neg htc]
        refine List.mem_map.2 ⟨(setBit (setBit J g.target (I.testBit g.target)) g.control (I.testBit g.control), J,
          g.mat (ix2 (I.testBit g.control) (I.testBit g.target)) (ix2 (J.testBit g.control) (J.testBit g.target))),
          List.mem_flatMap.2 ⟨(I.testBit g.control, I.testBit g.target), mem_bools2 _,
          List.mem_flatMap.2 ⟨(J.testBit g.control, J.testBit g.target), mem_bools2 _, ?_⟩⟩, ?_⟩
        · simp only [if_pos hx]
          exact List.mem_map.2 ⟨J, List.mem_filter.2 ⟨List.mem_range.2 hJ, by simp⟩, rfl⟩
        · simp only [Prod.mk.injEq, and_true]
          conv_lhs => rw [← e]
          rw [setBit_setBit, setBit_comm _ (Ne.symm htc), setBit_setBit, setBit_eq_self rfl, setBit_eq_self rfl]
      · rw [if_neg e] at hne; exact absurd rfl hne

/-- the register part of a state determines what a gate on the register does there -/
theorem matOp_congr {n t c : ℕ} (ht : t < n) (hc : c < n) (m : Mat4) {φ ψ : St} (h : ∀ I < 2 ^ n, φ I = ψ I) {I : ℕ} (hI : I < 2 ^ n) :
    matOp t c m φ I = matOp t c m ψ I := by
  unfold matOp
  split_ifs
  · rw [op1_apply, op1_apply, h _ ((setBit_lt ht _).2 hI), h _ ((setBit_lt ht _).2 hI)]
  · rw [op2_apply, op2_apply, h _ ((setBit_lt ht _).2 ((setBit_lt hc _).2 hI)), h _ ((setBit_lt ht _).2 ((setBit_lt hc _).2 hI)),
      h _ ((setBit_lt ht _).2 ((setBit_lt hc _).2 hI)), h _ ((setBit_lt ht _).2 ((setBit_lt hc _).2 hI))]

/-- a linear operator is determined by its columns -/
theorem op_columns (A : Op) (N : ℕ) (φ : St) (h : ∀ I, N ≤ I → φ I = 0) (I : ℕ) :
    A φ I = ∑ K ∈ Finset.range N, A (Pi.single K 1) I * φ K := by
  have e : φ = ∑ K ∈ Finset.range N, φ K • (Pi.single K 1 : St) := by
    funext J
    rw [Finset.sum_apply]
    simp only [Pi.smul_apply, Pi.single_apply, smul_eq_mul, mul_ite, mul_one, mul_zero]
    rw [Finset.sum_ite_eq]
    by_cases hJ : J < N
    · simp [hJ]
    · simp [hJ, h J (by omega)]
  conv_lhs => rw [e]
  rw [map_sum, Finset.sum_apply]
  refine Finset.sum_congr rfl (fun K _ => ?_)
  rw [map_smul, Pi.smul_apply, smul_eq_mul, mul_comm]

theorem matOp_columns {n t c : ℕ} (ht : t < n) (hc : c < n) (m : Mat4) (φ : St) {I : ℕ} (hI : I < 2 ^ n) :
    ∑ K ∈ Finset.range (2 ^ n), matOp t c m (Pi.single K 1) I * φ K = matOp t c m φ I := by
  have h := op_columns (matOp t c m) (2 ^ n) (fun K => if K < 2 ^ n then φ K else 0) (by intro K hK; simp; omega) I
  rw [matOp_congr ht hc m (ψ := φ) (by intro J hJ; simp [hJ]) hI] at h
  rw [h]
  refine Finset.sum_congr rfl (fun K hK => ?_)
  rw [if_pos (Finset.mem_range.1 hK)]

theorem trunc14_near (m : Mat4) (i j : Fin 4) : ‖(trunc14 m - m) i j‖ ≤ 1e-14 := by
  rw [Matrix.sub_apply]; unfold trunc14
  by_cases h : ‖m i j‖ > 1e-14
  · rw [if_pos h]; simp; norm_num
  · rw [if_neg h]; simpa using h

/-- one gate of a circuit: the new columns -/
theorem gate_step {n : ℕ} {R : SMat} (hR : R.OK (2 ^ n)) (g : Gate) (ht : g.target < n) (hc : g.control < n) :
    ∃ L, g.sparseMatrix n = .ok L ∧ (R.leftMultiply L).OK (2 ^ n) ∧
      ∀ I J, I < 2 ^ n → J < 2 ^ n → (R.leftMultiply L).get I J = chop (matOp g.target g.control (trunc14 g.mat) (fun K => R.get K J) I) := by
  obtain ⟨L, e1, e2, e3⟩ := gateSparse_ok g n ht hc
  obtain ⟨f1, f2⟩ := leftMultiply_ok hR e2
  refine ⟨L, e1, f1, fun I J hI hJ => ?_⟩
  rw [f2, ← matOp_columns ht hc _ _ hI]
  congr 1
  refine Finset.sum_congr rfl (fun K hK => ?_)
  rw [e3 I K (Finset.mem_range.1 hK)]

/-- error bound for the columns of a product of `k` gates -/
noncomputable def sparseErr (n k : ℕ) : ℝ := ((1 + 4e-14) ^ k - 1) * (1 + Real.sqrt (2 ^ n) / 400)

theorem sparseErr_succ (n k : ℕ) : sparseErr n (k + 1) = (1 + 4e-14) * sparseErr n k + (4e-14 + 1e-16 * Real.sqrt (2 ^ n)) := by
  unfold sparseErr; rw [pow_succ]; ring

theorem sparseErr_nonneg (n k : ℕ) : 0 ≤ sparseErr n k := by
  unfold sparseErr
  have : (1 : ℝ) ≤ (1 + 4e-14) ^ k := one_le_pow₀ (by norm_num)
  have := Real.sqrt_nonneg (2 ^ n)
  apply mul_nonneg <;> [linarith; positivity]

theorem nrm_single {n J : ℕ} (hJ : J < 2 ^ n) : nrm n (Pi.single J 1) = 1 := by
  unfold nrm
  rw [Finset.sum_eq_single J]
  · simp
  · intro b _ hb; simp [hb]
  · intro h; exact absurd (Finset.mem_range.2 hJ) h

theorem nrm_congr {n : ℕ} {φ ψ : St} (h : ∀ I < 2 ^ n, φ I = ψ I) : nrm n φ = nrm n ψ := by
  unfold nrm
  congr 1
  exact Finset.sum_congr rfl fun I hI => by rw [h I (Finset.mem_range.1 hI)]

theorem circuitSparse_loop {n : ℕ} : ∀ (c : Circuit) (R : SMat) (U : Op) (k : ℕ), R.OK (2 ^ n) → c.Fits n →
    (∀ g ∈ c, MatUnitary g.target g.control g.mat) → (∀ J < 2 ^ n, nrm n (U (Pi.single J 1)) = 1) →
    (∀ J < 2 ^ n, nrm n ((fun K => R.get K J) - U (Pi.single J 1)) ≤ sparseErr n k) →
    ∃ S, c.foldlM (fun R g => (do
      let L ← g.sparseMatrix n
      pure (SMat.leftMultiply R L) : Except Exc SMat)) R = .ok S ∧ S.OK (2 ^ n) ∧
      ∀ J < 2 ^ n, nrm n ((fun K => S.get K J) - (c.op * U) (Pi.single J 1)) ≤ sparseErr n (k + c.length) := by
  intro c
  induction c with
  | nil => intro R U k hR _ _ _ h; exact ⟨R, rfl, hR, by simpa using h⟩
  | cons g c ih =>
    intro R U k hR hf hu hU h
    obtain ⟨ht, hc⟩ := hf g (by simp)
    obtain ⟨L, e1, e2, e3⟩ := gate_step hR g ht hc
    obtain ⟨S, f1, f2, f3⟩ := ih (R.leftMultiply L) (g.op * U) (k + 1) e2 (fun x hx => hf x (by simp [hx])) (fun x hx => hu x (by simp [hx]))
      (fun J hJ => by rw [Module.End.mul_apply]; unfold Gate.op; rw [nrm_unitary ht hc (hu g (by simp)), hU J hJ])
      (by
        intro J hJ
        obtain ⟨v, hv⟩ : ∃ v : St, v = fun K => R.get K J := ⟨_, rfl⟩
        obtain ⟨u, hu'⟩ : ∃ u : St, u = U (Pi.single J 1) := ⟨_, rfl⟩
        have hb := h J hJ
        rw [← hv, ← hu'] at hb
        have hun : nrm n u = 1 := by rw [hu', hU J hJ]
        have hvn : nrm n v ≤ 1 + sparseErr n k := by
          have : v = (v - u) + u := by abel
          rw [this]
          refine le_trans (nrm_add_le n _ _) ?_
          rw [hun]; linarith
        rw [Module.End.mul_apply, ← hu']
        have split : nrm n ((fun K => (R.leftMultiply L).get K J) - g.op u) ≤
            nrm n ((fun K => (R.leftMultiply L).get K J) - matOp g.target g.control (trunc14 g.mat) v) +
            (nrm n (matOp g.target g.control (trunc14 g.mat) v - matOp g.target g.control g.mat v) +
             nrm n (matOp g.target g.control g.mat v - matOp g.target g.control g.mat u)) := by
          refine le_trans (le_of_eq ?_) (le_trans (nrm_add_le n _ _) (add_le_add (le_refl _) (nrm_add_le n _ _)))
          congr 1
          unfold Gate.op
          abel
        refine le_trans split ?_
        have b1 : nrm n ((fun K => (R.leftMultiply L).get K J) - matOp g.target g.control (trunc14 g.mat) v) ≤ 1e-16 * Real.sqrt (2 ^ n) := by
          apply nrm_le_entries (by norm_num)
          intro I hI
          rw [Pi.sub_apply, e3 I J hI hJ, ← hv]
          exact chop_near _
        have b2 : nrm n (matOp g.target g.control (trunc14 g.mat) v - matOp g.target g.control g.mat v) ≤ 4e-14 * nrm n v := by
          rw [matOp_sub]
          have := nrm_matOp_small ht hc (ε := 1e-14) (by norm_num) (trunc14_near g.mat) v
          refine le_trans this (le_of_eq ?_)
          norm_num
        have b3 : nrm n (matOp g.target g.control g.mat v - matOp g.target g.control g.mat u) = nrm n (v - u) := by
          rw [← map_sub, nrm_unitary ht hc (hu g (by simp))]
        rw [sparseErr_succ, b3]
        nlinarith [sparseErr_nonneg n k])
    refine ⟨S, ?_, f2, ?_⟩
    · rw [List.foldlM_cons]; simp only [e1, except_ok_bind, pure, Except.pure] at f1 ⊢; exact f1
    · intro J hJ
      have := f3 J hJ
      rw [Circuit.op_cons, mul_assoc, List.length_cons, show k + (c.length + 1) = k + 1 + c.length by ring]
      exact this

theorem circuitSparse_ok {n : ℕ} (c : Circuit) (hf : c.Fits n) (hu : ∀ g ∈ c, MatUnitary g.target g.control g.mat) :
    ∃ S, c.sparseMatrix n = .ok S ∧ S.OK (2 ^ n) ∧
      ∀ J < 2 ^ n, nrm n ((fun K => S.get K J) - c.op (Pi.single J 1)) ≤ sparseErr n c.length := by
  cases c with
  | nil =>
    obtain ⟨h1, h2⟩ := identity_ok (2 ^ n)
    refine ⟨_, rfl, h1, fun J hJ => ?_⟩
    rw [nrm_congr (ψ := 0), nrm_zero]
    · exact sparseErr_nonneg n _
    · intro I hI
      simp only [Pi.sub_apply, h2, Circuit.op_nil, Module.End.one_apply, Pi.single_apply, hI, and_true, Pi.zero_apply, sub_self]
  | cons g gs =>
    obtain ⟨ht, hc⟩ := hf g (by simp)
    obtain ⟨R, e1, e2, e3⟩ := gateSparse_ok g n ht hc
    obtain ⟨S, f1, f2, f3⟩ := circuitSparse_loop gs R g.op 1 e2 (fun x hx => hf x (by simp [hx])) (fun x hx => hu x (by simp [hx]))
      (fun J hJ => by unfold Gate.op; rw [nrm_unitary ht hc (hu g (by simp)), nrm_single hJ])
      (by
        intro J hJ
        have e : (fun K => R.get K J) = matOp g.target g.control (trunc14 g.mat) (Pi.single J 1) := by
          funext I; exact e3 I J hJ
        rw [e]; unfold Gate.op
        rw [matOp_sub]
        refine le_trans (nrm_matOp_small ht hc (ε := 1e-14) (by norm_num) (trunc14_near g.mat) _) ?_
        rw [nrm_single hJ]
        unfold sparseErr
        have := Real.sqrt_nonneg (2 ^ n)
        norm_num
        nlinarith)
    refine ⟨S, ?_, f2, ?_⟩
    · unfold Circuit.sparseMatrix
      simp only [e1, except_ok_bind]; exact f1
    · intro J hJ
      have := f3 J hJ
      rw [Circuit.op_cons, List.length_cons, Nat.add_comm]; exact this

end QF
