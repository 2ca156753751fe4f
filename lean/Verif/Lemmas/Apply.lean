import Verif.Lemmas.Stride

/-!
`apply_1qubit_gate`, `apply_2qubit_gate` and their `_safe` variants on well-formed computers.
-/
namespace QF

open Classical in
/-- the four branches shared by the fast kernels, over the index list `S0` (target bit 0) and `S1`
(target bit 1) -/
noncomputable def coreKernel (t : ℕ) (m00 m01 m10 m11 : ℂ) (S0 S1 : List ℕ) (l : List ℂ) :
    Except Exc (List ℂ) :=
  if ‖m00‖ + ‖m11‖ > thr ∧ ‖m01‖ + ‖m10‖ > thr then
    pairKernel m00 m01 m10 m11 (S0.map fun I => (I, I + 2 ^ t)) l
  else if ‖m00‖ + ‖m11‖ > thr then do
    let l ← (if m00 ≠ 1 then scaleKernel m00 S0 l else pure l)
    if m11 ≠ 1 then scaleKernel m11 S1 l else pure l
  else if m01 = m10 then swapKernel (S0.map fun I => (I, I + 2 ^ t)) l
  else antiKernel m01 m10 (S0.map fun I => (I, I + 2 ^ t)) l

theorem scale_step (a : ℂ) (S : List ℕ) (l : List ℂ) (hnd : S.Nodup) (hlt : ∀ I ∈ S, I < l.length) :
    ∃ l', (if a ≠ 1 then scaleKernel a S l else pure l) = .ok l' ∧ l'.length = l.length ∧
      ∀ J, vec l' J = if J ∈ S then a * vec l J else vec l J := by
  by_cases h : a = 1
  · exact ⟨l, by simp [h]; rfl, rfl, fun J => by simp [h]⟩
  · simpa [h] using scaleKernel_ok a S l hnd hlt

theorem norm_le_of_add {a b : ℂ} (h : ¬ ‖a‖ + ‖b‖ > thr) : ‖a‖ ≤ thr ∧ ‖b‖ ≤ thr := by
  have := norm_nonneg a; have := norm_nonneg b
  constructor <;> linarith

theorem thr_pos : 0 < thr := by unfold thr; norm_num
theorem thr_nonneg : 0 ≤ thr := thr_pos.le

theorem coreKernel_ok (t : ℕ) (m : M2) (S0 S1 : List ℕ) (l : List ℂ)
    (h0 : S0.Nodup) (h1 : S1.Nodup) (hb : ∀ I ∈ S0, I.testBit t = false)
    (hlt : ∀ I ∈ S0, I + 2 ^ t < l.length)
    (hS1 : ∀ J, J ∈ S1 ↔ J.testBit t = true ∧ setBit J t false ∈ S0)
    (hbug : NoSwapBug (m false false) (m false true) (m true false) (m true true)) :
    ∃ l' m', coreKernel t (m false false) (m false true) (m true false) (m true true) S0 S1 l = .ok l' ∧
      l'.length = l.length ∧ (∀ a b, ‖m' a b - m a b‖ ≤ thr) ∧
      (∀ a b, m' a b = m a b ∨ (m' a b = 0 ∧ ‖m a b‖ ≤ thr)) ∧
      ∀ J, vec l' J = if setBit J t false ∈ S0 then op1 t m' (vec l) J else vec l J := by
  unfold coreKernel
  have key : ∀ m' : M2, (∀ a b, m' a b = m a b ∨ (m' a b = 0 ∧ ‖m a b‖ ≤ thr)) →
      ∀ a b, ‖m' a b - m a b‖ ≤ thr := by
    intro m' h a b
    rcases h a b with h | ⟨h, h2⟩
    · rw [h]; simpa using thr_nonneg
    · rw [h]; simpa using h2
  by_cases hd : ‖m false false‖ + ‖m true true‖ > thr
  · by_cases ho : ‖m false true‖ + ‖m true false‖ > thr
    · rw [if_pos ⟨hd, ho⟩]
      obtain ⟨l', e1, e2, e3⟩ := pairKernel_ok m t S0 l h0 hb hlt
      have hh : ∀ a b, m a b = m a b ∨ (m a b = 0 ∧ ‖m a b‖ ≤ thr) := fun a b => Or.inl rfl
      exact ⟨l', m, e1, e2, key m hh, hh, e3⟩
    · rw [if_neg (by tauto), if_pos hd]
      have hlt0 : ∀ I ∈ S0, I < l.length := fun I hI => by
        have := hlt I hI; have := Nat.two_pow_pos t; omega
      obtain ⟨l1, e1, e2, e3⟩ := scale_step (m false false) S0 l h0 hlt0
      have hlt1 : ∀ I ∈ S1, I < l1.length := fun I hI => by
        rw [e2]
        obtain ⟨hI1, hI2⟩ := (hS1 I).1 hI
        have := hlt _ hI2
        rwa [setBit_false_of_set hI1] at this
      obtain ⟨l2, f1, f2, f3⟩ := scale_step (m true true) S1 l1 h1 hlt1
      have hn := norm_le_of_add ho
      have hh : ∀ a b, (fun a b => if a = b then m a b else 0 : M2) a b = m a b ∨
          ((fun a b => if a = b then m a b else 0 : M2) a b = 0 ∧ ‖m a b‖ ≤ thr) := by
        intro a b
        cases a <;> cases b <;> simp [hn.1, hn.2]
      refine ⟨l2, fun a b => if a = b then m a b else 0, ?_, by rw [f2, e2], key _ hh, hh, ?_⟩
      · rw [e1]; exact f1
      · intro J
        rw [f3, e3, op1_apply]
        cases hJ : J.testBit t
        · have hn1 : J ∉ S1 := fun h => by simp [((hS1 J).1 h).1] at hJ
          rw [if_neg hn1, setBit_eq_self hJ]; simp
        · have hn0 : J ∉ S0 := fun h => by simp [hb J h] at hJ
          have : J ∈ S1 ↔ setBit J t false ∈ S0 := by rw [hS1]; simp [hJ]
          simp only [this, hn0, if_false]
          split <;> simp [setBit_eq_self hJ]
  · rw [if_neg (by tauto), if_neg hd]
    have hn := norm_le_of_add hd
    by_cases he : m false true = m true false
    · rw [if_pos he, swapKernel_eq]
      have h1' := hbug (by unfold thr at hd; linarith) he
      obtain ⟨l', e1, e2, e3⟩ := pairKernel_ok (fun a b => if a = b then 0 else 1) t S0 l h0 hb hlt
      have hh : ∀ a b, (fun a b => if a = b then 0 else 1 : M2) a b = m a b ∨
          ((fun a b => if a = b then 0 else 1 : M2) a b = 0 ∧ ‖m a b‖ ≤ thr) := by
        intro a b
        cases a <;> cases b <;> simp [hn.1, hn.2, h1', ← he]
      exact ⟨l', _, by simpa using e1, e2, key _ hh, hh, e3⟩
    · rw [if_neg he, antiKernel_eq]
      obtain ⟨l', e1, e2, e3⟩ := pairKernel_ok (fun a b => if a = b then 0 else m a b) t S0 l h0 hb hlt
      have hh : ∀ a b, (fun a b => if a = b then 0 else m a b : M2) a b = m a b ∨
          ((fun a b => if a = b then 0 else m a b : M2) a b = 0 ∧ ‖m a b‖ ≤ thr) := by
        intro a b
        cases a <;> cases b <;> simp [hn.1, hn.2]
      exact ⟨l', _, by simpa using e1, e2, key _ hh, hh, e3⟩

/-- in the mis-parsed branch the kernel acts as X -/
theorem coreKernel_swap (t : ℕ) (m : M2) (S0 S1 : List ℕ) (l : List ℂ)
    (h0 : S0.Nodup) (hb : ∀ I ∈ S0, I.testBit t = false)
    (hlt : ∀ I ∈ S0, I + 2 ^ t < l.length)
    (hd : ‖m false false‖ + ‖m true true‖ ≤ 1e-16) (he : m false true = m true false) :
    ∃ l', coreKernel t (m false false) (m false true) (m true false) (m true true) S0 S1 l = .ok l' ∧
      l'.length = l.length ∧
      ∀ J, vec l' J = if setBit J t false ∈ S0 then op1 t mX (vec l) J else vec l J := by
  unfold coreKernel
  have hd' : ¬ ‖m false false‖ + ‖m true true‖ > thr := by unfold thr; linarith
  rw [if_neg (by tauto), if_neg hd', if_pos he, swapKernel_eq]
  obtain ⟨l', e1, e2, e3⟩ := pairKernel_ok mX t S0 l h0 hb hlt
  exact ⟨l', by simpa [mX] using e1, e2, e3⟩

/-! ### one qubit -/

theorem apply1_eq (q : Computer) (g : Gate) (hq : q.WF) (ht : g.target < q.nqubit) :
    q.apply1 g = (do
      let l ← coreKernel g.target (g.mat 0 0) (g.mat 0 1) (g.mat 1 0) (g.mat 1 1)
        (stride1 q.nqubit g.target false) (stride1 q.nqubit g.target true) q.coeff
      pure { q with coeff := l, noneOps := q.noneOps + 1 }) := by
  unfold Computer.apply1 coreKernel
  have a1 := fun s1 => innerLoop_idxs ht false s1
  have a2 := fun s1 => innerLoop_idxs ht true s1
  simp only [Bool.toNat_false, Nat.zero_mul, Nat.zero_add, Bool.toNat_true, Nat.one_mul] at a1 a2
  have a3 := innerLoop_pairs (2 * 2 ^ g.target) (2 ^ q.nqubit) ⟨0, 2 ^ g.target, 2 ^ g.target⟩ (2 ^ g.target)
    (by simp)
  rw [a1] at a3
  simp only [hq.nbasis, a1, a2, a3]

theorem stride1_lt {n t : ℕ} (ht : t < n) {I : ℕ} (hI : I ∈ stride1 n t false) : I + 2 ^ t < 2 ^ n := by
  obtain ⟨h1, h2⟩ := (mem_stride1 ht).1 hI
  rw [← setBit_true_of_clear h2]
  exact (setBit_lt ht true).2 h1

theorem mem_stride1_true {n t : ℕ} (ht : t < n) (J : ℕ) :
    J ∈ stride1 n t true ↔ J.testBit t = true ∧ setBit J t false ∈ stride1 n t false := by
  simp [mem_stride1 ht, setBit_lt ht, and_comm]

theorem op1_eq_of_ge {n t : ℕ} (ht : t < n) (m : M2) {v : St} (hv : ∀ J, 2 ^ n ≤ J → v J = 0) {J : ℕ}
    (hJ : 2 ^ n ≤ J) : op1 t m v J = 0 := by
  rw [op1_apply]
  have h : ∀ b, 2 ^ n ≤ setBit J t b := fun b => by
    by_contra h; exact absurd ((setBit_lt ht b).1 (Nat.lt_of_not_le h)) (by omega)
  rw [hv _ (h _), hv _ (h _)]; simp

theorem Computer.WF.psi_ge {q : Computer} (hq : q.WF) {J : ℕ} (hJ : 2 ^ q.nqubit ≤ J) : q.psi J = 0 :=
  vec_of_ge (by rw [hq.len]; exact hJ)

/-- fill a 2×2 matrix into the upper-left block, keeping the rest -/
def setM2 (m : Mat4) (a : M2) : Mat4 := fun i j =>
  if i = 0 ∧ j = 0 then a false false else if i = 0 ∧ j = 1 then a false true
  else if i = 1 ∧ j = 0 then a true false else if i = 1 ∧ j = 1 then a true true else m i j

theorem toM2_setM2 (m : Mat4) (a : M2) : toM2 (setM2 m a) = a := by
  funext x y; cases x <;> cases y <;> simp [toM2, setM2, ix1]

theorem setM2_cases {P : ℂ → ℂ → Prop} {m : Mat4} {a : M2} (h : ∀ x y, P (a x y) (toM2 m x y))
    (hr : ∀ z, P z z) (i j : Fin 4) : P (setM2 m a i j) (m i j) := by
  have h1 := h false false; have h2 := h false true; have h3 := h true false; have h4 := h true true
  simp only [toM2, ix1, if_true, Bool.false_eq_true, if_false] at h1 h2 h3 h4
  fin_cases i <;> fin_cases j <;> simp [setM2] <;> first | assumption | exact hr _

theorem apply1_ok (q : Computer) (g : Gate) (hq : q.WF) (hg : g.target = g.control)
    (ht : g.target < q.nqubit) (hbug : NoSwapBug (g.mat 0 0) (g.mat 0 1) (g.mat 1 0) (g.mat 1 1)) :
    ∃ q' m', q.apply1 g = .ok q' ∧ q'.WF ∧ q'.nqubit = q.nqubit ∧
      q'.noneOps = q.noneOps + 1 ∧ q'.ntwoOps = q.ntwoOps ∧ Near m' g.mat ∧
      (∀ i j, m' i j = g.mat i j ∨ (m' i j = 0 ∧ ‖g.mat i j‖ ≤ thr)) ∧
      q'.psi = matOp g.target g.control m' q.psi := by
  rw [apply1_eq q g hq ht]
  obtain ⟨l', m', e1, e2, e3, e4, e5⟩ := coreKernel_ok g.target (toM2 g.mat)
    (stride1 q.nqubit g.target false) (stride1 q.nqubit g.target true) q.coeff
    (nodup_of_lt (stride1_pairwise _ _ _)) (nodup_of_lt (stride1_pairwise _ _ _))
    (fun I hI => ((mem_stride1 ht).1 hI).2) (fun I hI => by rw [hq.len]; exact stride1_lt ht hI)
    (mem_stride1_true ht) hbug
  have e1' : coreKernel g.target (g.mat 0 0) (g.mat 0 1) (g.mat 1 0) (g.mat 1 1)
        (stride1 q.nqubit g.target false) (stride1 q.nqubit g.target true) q.coeff = .ok l' := e1
  rw [e1']
  refine ⟨{ q with coeff := l', noneOps := q.noneOps + 1 }, setM2 g.mat m', rfl,
    ⟨hq.nbasis, by rw [e2]; exact hq.len, hq.new⟩, rfl, rfl, rfl, ?_, ?_, ?_⟩
  · intro i j
    refine setM2_cases (P := fun x y => ‖x - y‖ ≤ 1e-16) (fun x y => ?_) (fun z => by norm_num) i j
    have := e3 x y; unfold thr at this; exact this
  · intro i j
    exact setM2_cases (P := fun x y => x = y ∨ (x = 0 ∧ ‖y‖ ≤ thr)) e4 (fun z => Or.inl rfl) i j
  · simp only [matOp, hg, if_true]
    rw [← hg, toM2_setM2]
    funext J
    show vec l' J = _
    rw [e5]
    by_cases hJ : J < 2 ^ q.nqubit
    · rw [if_pos]
      · rfl
      · rw [mem_stride1 ht]; simp [setBit_lt ht, hJ]
    · rw [if_neg]
      · rw [op1_eq_of_ge ht _ (fun K hK => hq.psi_ge hK) (by omega)]
        exact hq.psi_ge (by omega)
      · rw [mem_stride1 ht, setBit_lt ht]; tauto

/-- the mis-parsed comparison: any anti-diagonal gate with equal off-diagonal entries acts as X -/
theorem apply1_swap (q : Computer) (g : Gate) (hq : q.WF)
    (ht : g.target < q.nqubit) (hd : ‖g.mat 0 0‖ + ‖g.mat 1 1‖ ≤ 1e-16) (he : g.mat 0 1 = g.mat 1 0) :
    ∃ q', q.apply1 g = .ok q' ∧ q'.psi = opX g.target q.psi := by
  rw [apply1_eq q g hq ht]
  obtain ⟨l', e1, e2, e5⟩ := coreKernel_swap g.target (toM2 g.mat)
    (stride1 q.nqubit g.target false) (stride1 q.nqubit g.target true) q.coeff
    (nodup_of_lt (stride1_pairwise _ _ _))
    (fun I hI => ((mem_stride1 ht).1 hI).2) (fun I hI => by rw [hq.len]; exact stride1_lt ht hI)
    hd he
  have e1' : coreKernel g.target (g.mat 0 0) (g.mat 0 1) (g.mat 1 0) (g.mat 1 1)
        (stride1 q.nqubit g.target false) (stride1 q.nqubit g.target true) q.coeff = .ok l' := e1
  rw [e1']
  refine ⟨{ q with coeff := l', noneOps := q.noneOps + 1 }, rfl, ?_⟩
  funext J
  show vec l' J = _
  rw [e5]
  by_cases hJ : J < 2 ^ q.nqubit
  · rw [if_pos]
    · rfl
    · rw [mem_stride1 ht]; simp [setBit_lt ht, hJ]
  · rw [if_neg]
    · rw [opX, op1_eq_of_ge ht _ (fun K hK => hq.psi_ge hK) (by omega)]
      exact hq.psi_ge (by omega)
    · rw [mem_stride1 ht, setBit_lt ht]; tauto

end QF
