import Verif.Lemmas.Apply

namespace QF

/-! ### two qubits, controlled gates -/

theorem apply2A_eq {n t c : ℕ} (htc : t < c) (hc : c < n) (m22 m23 m32 m33 : ℂ) (l : List ℂ) :
    apply2A (2 ^ n) t c m22 m23 m32 m33 l =
      coreKernel t m22 m23 m32 m33 (stride2 n t c false true) (stride2 n t c true true) l := by
  unfold apply2A coreKernel
  have h2 : 2 * 2 ^ t = 2 ^ (t + 1) := by rw [pow_succ]; omega
  have h2' : 2 * 2 ^ c = 2 ^ (c + 1) := by rw [pow_succ]; omega
  have a1 := fun s1 => outerLoop_idxs (n := n) htc hc false true s1 (2 ^ (c + 1)) (fun oe => oe) (Or.inl rfl)
    (fun j => by rw [pow_succ]; simp only [Bool.toNat_true]; ring)
  have a2 := fun s1 => outerLoop_idxs (n := n) htc hc true true s1 (2 ^ (c + 1)) (fun oe => oe) (Or.inl rfl)
    (fun j => by rw [pow_succ]; simp only [Bool.toNat_true]; ring)
  simp only [Bool.toNat_false, Nat.zero_mul, Nat.add_zero, Bool.toNat_true, Nat.one_mul] at a1 a2
  have a3 := outerLoop_pairs (2 ^ (t + 1)) (2 ^ c) (2 ^ (c + 1)) (2 ^ n) (fun oe => oe) (2 ^ (c + 1))
    ⟨2 ^ c, 2 ^ c + 2 ^ t, 2 ^ c + 2 ^ t⟩ (2 ^ t) rfl
  rw [a1] at a3
  simp only [h2, h2', a1, a2, a3]

theorem apply2B_eq {n t c : ℕ} (hct : c < t) (ht : t < n) (m22 m23 m32 m33 : ℂ) (l : List ℂ) :
    apply2B (2 ^ n) t c m22 m23 m32 m33 l =
      coreKernel t m22 m23 m32 m33 (stride2 n c t true false) (stride2 n c t true true) l := by
  unfold apply2B coreKernel
  have h2 : 2 ^ t * 2 = 2 ^ (t + 1) := by rw [pow_succ]
  have h2' : 2 ^ c * 2 = 2 ^ (c + 1) := by rw [pow_succ]
  have h2'' : 2 ^ (c + 1) = 2 ^ c + 2 ^ c := by rw [pow_succ]; omega
  have a0 := fun s1 => outerLoop_idxs (n := n) hct ht true false s1 (2 ^ (t + 1)) (fun oe => oe - 2 ^ t) (Or.inl rfl)
    (fun j => by
      simp only [Bool.toNat_false, Nat.zero_add, Nat.one_mul]
      have : 2 ^ (t + 1) = 2 ^ t + 2 ^ t := by rw [pow_succ]; omega
      omega)
  have a1 := fun s1 => outerLoop_idxs (n := n) hct ht true false s1 (2 ^ t) (fun oe => oe) (Or.inr rfl)
    (fun j => by simp only [Bool.toNat_false, Nat.zero_add, Nat.one_mul])
  have a2 := fun s1 => outerLoop_idxs (n := n) hct ht true true s1 (2 ^ (t + 1)) (fun oe => oe) (Or.inl rfl)
    (fun j => by rw [pow_succ]; simp only [Bool.toNat_true]; ring)
  simp only [Bool.toNat_false, Nat.zero_mul, Nat.zero_add, Bool.toNat_true, Nat.one_mul] at a0 a1 a2
  rw [← h2''] at a0 a1
  have a3 := outerLoop_pairs (2 ^ (c + 1)) (2 ^ t) (2 ^ (t + 1)) (2 ^ n) (fun oe => oe - 2 ^ t) (2 ^ (t + 1))
    ⟨2 ^ c, 2 ^ t + 2 ^ c, 2 ^ (c + 1)⟩ (2 ^ t) (by simp only; omega)
  have a4 := outerLoop_pairs (2 ^ (c + 1)) (2 ^ t) (2 ^ (t + 1)) (2 ^ n) (fun oe => oe) (2 ^ t)
    ⟨2 ^ c, 2 ^ t + 2 ^ c, 2 ^ (c + 1)⟩ (2 ^ t) (by simp only; omega)
  rw [a0] at a3
  rw [a1] at a4
  have a5 := forStep_idxs (n := n) hct ht
  simp only [h2, h2', a2, a3, a4, a5]

/-- set the lower-right block, keeping the rest -/
def setLow (m : Mat4) (a : M2) : Mat4 := fun i j =>
  if i = 2 ∧ j = 2 then a false false else if i = 2 ∧ j = 3 then a false true
  else if i = 3 ∧ j = 2 then a true false else if i = 3 ∧ j = 3 then a true true else m i j

/-- lower-right block -/
def low2 (m : Mat4) : M2 := fun a b => m (ix2 true a) (ix2 true b)

theorem setLow_cases {P : ℂ → ℂ → Prop} {m : Mat4} {a : M2} (h : ∀ x y, P (a x y) (low2 m x y))
    (hr : ∀ z, P z z) (i j : Fin 4) : P (setLow m a i j) (m i j) := by
  have h1 := h false false; have h2 := h false true; have h3 := h true false; have h4 := h true true
  simp only [low2, ix2] at h1 h2 h3 h4
  fin_cases i <;> fin_cases j <;> simp [setLow] <;> first | assumption | exact hr _

/-- block-diagonal with identity upper-left block -/
def IsCtrl (m : Mat4) : Prop :=
  m 0 0 = 1 ∧ m 1 1 = 1 ∧ m 0 1 = 0 ∧ m 1 0 = 0 ∧ m 0 2 = 0 ∧ m 0 3 = 0 ∧ m 1 2 = 0 ∧ m 1 3 = 0 ∧
  m 2 0 = 0 ∧ m 2 1 = 0 ∧ m 3 0 = 0 ∧ m 3 1 = 0

theorem op2_setLow {m : Mat4} (hm : IsCtrl m) {t c : ℕ} (a : M2) (ψ : St) (I : ℕ) :
    op2 t c (toM4 (setLow m a)) ψ I = if I.testBit c then op1 t a ψ I else ψ I := by
  obtain ⟨h00, h11, h01, h10, h02, h03, h12, h13, h20, h21, h30, h31⟩ := hm
  rw [op2_apply, op1_apply]
  cases hc : I.testBit c
  · simp only [toM4, ix2, setLow]
    have e := setBit_eq_self hc
    cases ht : I.testBit t
    · have e' := setBit_eq_self ht
      simp [h00, h01, h02, h03, e, e']
    · have e' := setBit_eq_self ht
      simp [h10, h11, h12, h13, e, e']
  · have e := setBit_eq_self hc
    cases ht : I.testBit t
    · simp [toM4, ix2, setLow, e, h20, h21]
    · simp [toM4, ix2, setLow, e, h30, h31]

theorem ctrl_kernel (n t c : ℕ) (hne : t ≠ c) (ht : t < n) (hc : c < n) :
    ∃ S0 S1 : List ℕ, S0.Nodup ∧ S1.Nodup ∧
      (∀ I, I ∈ S0 ↔ I < 2 ^ n ∧ I.testBit t = false ∧ I.testBit c = true) ∧
      (∀ I, I ∈ S1 ↔ I < 2 ^ n ∧ I.testBit t = true ∧ I.testBit c = true) ∧
      ∀ m22 m23 m32 m33 l, (t < c → apply2A (2 ^ n) t c m22 m23 m32 m33 l =
        coreKernel t m22 m23 m32 m33 S0 S1 l) ∧ (c < t → apply2B (2 ^ n) t c m22 m23 m32 m33 l =
        coreKernel t m22 m23 m32 m33 S0 S1 l) := by
  rcases Nat.lt_or_gt_of_ne hne with h | h
  · refine ⟨stride2 n t c false true, stride2 n t c true true, nodup_of_lt (stride2_pairwise h _ _),
      nodup_of_lt (stride2_pairwise h _ _), fun I => mem_stride2 h hc, fun I => mem_stride2 h hc, ?_⟩
    intro m22 m23 m32 m33 l
    exact ⟨fun _ => apply2A_eq h hc _ _ _ _ _, fun h' => by omega⟩
  · refine ⟨stride2 n c t true false, stride2 n c t true true, nodup_of_lt (stride2_pairwise h _ _),
      nodup_of_lt (stride2_pairwise h _ _), fun I => ?_, fun I => ?_, ?_⟩
    · rw [mem_stride2 h ht]; tauto
    · rw [mem_stride2 h ht]; tauto
    intro m22 m23 m32 m33 l
    exact ⟨fun h' => by omega, fun _ => apply2B_eq h ht _ _ _ _ _⟩

theorem apply2_ctrl_ok (q : Computer) (g : Gate) (hq : q.WF) (hne : g.target ≠ g.control)
    (ht : g.target < q.nqubit) (hc : g.control < q.nqubit) (hm : IsCtrl g.mat)
    (hbug : NoSwapBug (g.mat 2 2) (g.mat 2 3) (g.mat 3 2) (g.mat 3 3)) :
    ∃ q' m', q.apply2 g = .ok q' ∧ q'.WF ∧ q'.nqubit = q.nqubit ∧
      q'.noneOps = q.noneOps ∧ q'.ntwoOps = q.ntwoOps + 1 ∧ Near m' g.mat ∧
      (∀ i j, m' i j = g.mat i j ∨ (m' i j = 0 ∧ ‖g.mat i j‖ ≤ thr)) ∧
      q'.psi = matOp g.target g.control m' q.psi := by
  obtain ⟨S0, S1, n0, n1, hS0, hS1, hk⟩ := ctrl_kernel q.nqubit g.target g.control hne ht hc
  have hb : ∀ I ∈ S0, I.testBit g.target = false := fun I hI => ((hS0 I).1 hI).2.1
  have hS0' : ∀ J, setBit J g.target false ∈ S0 ↔ J < 2 ^ q.nqubit ∧ J.testBit g.control = true := by
    intro J
    rw [hS0, setBit_lt ht]; simp [Ne.symm hne]
  have hlt : ∀ I ∈ S0, I + 2 ^ g.target < q.coeff.length := by
    intro I hI
    rw [hq.len, ← setBit_true_of_clear (hb I hI)]
    exact (setBit_lt ht true).2 ((hS0 I).1 hI).1
  obtain ⟨l', m', e1, e2, e3, e4, e5⟩ := coreKernel_ok g.target (low2 g.mat) S0 S1 q.coeff n0 n1 hb hlt
    (fun J => by rw [hS1, hS0']; tauto) hbug
  have e1' : coreKernel g.target (g.mat 2 2) (g.mat 2 3) (g.mat 3 2) (g.mat 3 3) S0 S1 q.coeff = .ok l' := e1
  have hap : q.apply2 g = .ok { q with coeff := l', ntwoOps := q.ntwoOps + 1 } := by
    have hcond : ‖g.mat 0 1‖ + ‖g.mat 1 0‖ < thr ∧ g.mat 0 0 = 1 ∧ g.mat 1 1 = 1 := by
      obtain ⟨h00, h11, h01, h10, _⟩ := hm
      refine ⟨?_, h00, h11⟩
      rw [h01, h10]; simpa using thr_pos
    unfold Computer.apply2
    simp only []
    rw [if_pos hcond]
    rcases Nat.lt_or_gt_of_ne hne with h | h
    · rw [if_pos h, hq.nbasis, ((hk _ _ _ _ _).1 h), e1']
      simp only [except_ok_bind, pure, Except.pure]
      rw [if_neg (by omega)]
    · rw [if_neg (by omega : ¬ g.target < g.control)]
      simp only [except_ok_bind, pure, Except.pure]
      rw [if_pos h, hq.nbasis, ((hk _ _ _ _ _).2 h), e1']
      rfl
  refine ⟨_, setLow g.mat m', hap, ⟨hq.nbasis, by rw [e2]; exact hq.len, hq.new⟩, rfl, rfl, rfl, ?_, ?_, ?_⟩
  · intro i j
    refine setLow_cases (P := fun x y => ‖x - y‖ ≤ 1e-16) (fun x y => ?_) (fun z => by norm_num) i j
    have := e3 x y; unfold thr at this; exact this
  · intro i j
    exact setLow_cases (P := fun x y => x = y ∨ (x = 0 ∧ ‖y‖ ≤ thr)) e4 (fun z => Or.inl rfl) i j
  · rw [matOp, if_neg hne]
    funext J
    show vec l' J = _
    rw [op2_setLow hm, e5]
    by_cases hJ : J < 2 ^ q.nqubit
    · cases hcb : J.testBit g.control
      · rw [if_neg (by rw [hS0']; simp [hcb]), if_neg (by simp)]; rfl
      · rw [if_pos ((hS0' J).2 ⟨hJ, hcb⟩), if_pos rfl]; rfl
    · rw [if_neg (by rw [hS0']; tauto)]
      rw [op1_eq_of_ge ht _ (fun K hK => hq.psi_ge hK) (by omega)]
      have := hq.psi_ge (J := J) (by omega)
      have h2 : vec q.coeff J = 0 := this
      rw [this, h2]; simp

/-! ### accumulation -/

theorem accum_ok (basis : List ℕ) (cond : ℕ → Bool) (dest : ℕ → ℕ) (op : ℂ) (coeff nw : List ℂ)
    (P : ℕ → Prop) [DecidablePred P] (inv : ℕ → ℕ) (hnd : basis.Nodup)
    (hinv : ∀ I J, (cond J = true ∧ dest J = I) ↔ (P I ∧ J = inv I))
    (hb : ∀ J ∈ basis, J < coeff.length) (hd : ∀ J ∈ basis, dest J < nw.length) :
    ∃ nw', accum basis cond dest op coeff nw = .ok nw' ∧ nw'.length = nw.length ∧
      ∀ I, vec nw' I = vec nw I + if P I ∧ inv I ∈ basis then op * vec coeff (inv I) else 0 := by
  induction basis generalizing nw with
  | nil => exact ⟨nw, rfl, rfl, fun I => by simp⟩
  | cons J basis ih =>
    have hJ := hb J (by simp)
    have hdJ := hd J (by simp)
    have hJn := (List.nodup_cons.1 hnd).1
    cases hcJ : cond J
    · obtain ⟨nw', e1, e2, e3⟩ := ih nw (List.nodup_cons.1 hnd).2 (fun K hK => hb K (by simp [hK]))
        (fun K hK => hd K (by simp [hK]))
      refine ⟨nw', ?_, e2, ?_⟩
      · rw [← e1]; simp [accum, hcJ]
      · intro I
        rw [e3]
        congr 1
        have : P I ∧ inv I ∈ J :: basis ↔ P I ∧ inv I ∈ basis := by
          constructor
          · rintro ⟨h1, h2⟩
            refine ⟨h1, ?_⟩
            rcases List.mem_cons.1 h2 with h | h
            · have := (hinv I J).2 ⟨h1, h.symm⟩; rw [hcJ] at this; simp at this
            · exact h
          · rintro ⟨h1, h2⟩; exact ⟨h1, by simp [h2]⟩
        simp only [this]
    · set nw1 := nw.set (dest J) (vec nw (dest J) + op * vec coeff J) with hnw1
      have len1 : nw1.length = nw.length := by simp [hnw1]
      obtain ⟨nw', e1, e2, e3⟩ := ih nw1 (List.nodup_cons.1 hnd).2 (fun K hK => hb K (by simp [hK]))
        (fun K hK => by rw [len1]; exact hd K (by simp [hK]))
      refine ⟨nw', ?_, by rw [e2, len1], ?_⟩
      · rw [← e1]
        simp only [accum, List.foldlM_cons, hcJ, if_true]
        rw [rd_ok hJ]; simp only [except_ok_bind]
        rw [rd_ok hdJ]; simp only [except_ok_bind]
        rw [wr_ok hdJ]; rfl
      · intro I
        rw [e3, hnw1, vec_set _ hdJ]
        have hPJ := (hinv (dest J) J).1 ⟨hcJ, rfl⟩
        by_cases hI : I = dest J
        · subst hI
          rw [if_pos rfl, if_neg (by rw [← hPJ.2]; tauto), if_pos ⟨hPJ.1, by rw [← hPJ.2]; simp⟩, ← hPJ.2]
          ring
        · rw [if_neg hI]
          congr 1
          have : P I ∧ inv I ∈ J :: basis ↔ P I ∧ inv I ∈ basis := by
            constructor
            · rintro ⟨h1, h2⟩
              refine ⟨h1, ?_⟩
              rcases List.mem_cons.1 h2 with h | h
              · exact absurd ((hinv I J).2 ⟨h1, h.symm⟩).2 (Ne.symm hI)
              · exact h
            · rintro ⟨h1, h2⟩; exact ⟨h1, by simp [h2]⟩
          simp only [this]

/-- entries at or below the threshold are dropped -/
noncomputable def trunc (z : ℂ) : ℂ := open Classical in if ‖z‖ > thr then z else 0

theorem trunc_or (z : ℂ) : trunc z = z ∨ (trunc z = 0 ∧ ‖z‖ ≤ thr) := by
  unfold trunc; split
  · exact Or.inl rfl
  · rename_i h; exact Or.inr ⟨rfl, le_of_not_gt h⟩

open Classical in
/-- one guarded accumulation -/
theorem accum_trunc (basis : List ℕ) (cond : ℕ → Bool) (dest : ℕ → ℕ) (op : ℂ) (coeff nw : List ℂ)
    (P : ℕ → Prop) [DecidablePred P] (inv : ℕ → ℕ) (hnd : basis.Nodup)
    (hinv : ∀ I J, (cond J = true ∧ dest J = I) ↔ (P I ∧ J = inv I))
    (hb : ∀ J ∈ basis, J < coeff.length) (hd : ∀ J ∈ basis, dest J < nw.length) :
    ∃ nw', (if ‖op‖ > thr then accum basis cond dest op coeff nw else pure nw) = .ok nw' ∧
      nw'.length = nw.length ∧
      ∀ I, vec nw' I = vec nw I + if P I ∧ inv I ∈ basis then trunc op * vec coeff (inv I) else 0 := by
  by_cases h : ‖op‖ > thr
  · simp only [trunc, h, if_true]
    exact accum_ok basis cond dest op coeff nw P inv hnd hinv hb hd
  · simp only [trunc, h, if_false]
    exact ⟨nw, rfl, rfl, fun I => by simp⟩

end QF
