import Verif.Spec.State
import Verif.Lemmas.Gate
import Mathlib.Data.List.Nodup
import Mathlib.Data.List.Flatten
import Mathlib.Tactic.Linarith

/-!
Index sets visited by the strided loops of `computer.cc`, and the effect of the loop bodies.
-/
namespace QF

theorem vec_of_ge {l : List ℂ} {i : ℕ} (h : l.length ≤ i) : vec l i = 0 := by
  simp [vec, h]

theorem vec_ext {l l' : List ℂ} (hl : l.length = l'.length) (h : vec l = vec l') : l = l' := by
  apply List.ext_getElem hl
  intro i h1 h2
  have := congrFun h i
  simpa [vec, h1, h2] using this

theorem vec_set {l : List ℂ} {i : ℕ} (v : ℂ) (hi : i < l.length) (j : ℕ) :
    vec (l.set i v) j = if j = i then v else vec l j := by
  unfold vec
  simp only [List.getD_eq_getElem?_getD, List.getElem?_set]
  by_cases h : i = j
  · subst h; simp [hi]
  · simp [h, Ne.symm h]

@[simp] theorem vec_replicate (n : ℕ) : vec (List.replicate n (0 : ℂ)) = 0 := by
  funext i
  simp only [vec, List.getD_eq_getElem?_getD, List.getElem?_replicate]
  split <;> rfl

theorem rd_ok {l : List ℂ} {i : ℕ} (h : i < l.length) : rd l i = .ok (vec l i) := by
  simp [rd, vec, h]

theorem wr_ok {l : List ℂ} {i : ℕ} (h : i < l.length) (v : ℂ) : wr l i v = .ok (l.set i v) := by
  simp [wr, h]

@[simp] theorem except_ok_bind {ε : Type*} {α β : Type} (a : α) (f : α → Except ε β) :
    (Except.ok a >>= f) = f a := rfl
@[simp] theorem except_error_bind {ε : Type*} {α β : Type} (e : ε) (f : α → Except ε β) :
    ((Except.error e : Except ε α) >>= f) = .error e := rfl

/-! ### effect of the loop bodies -/

theorem swapKernel_eq (ps : List (ℕ × ℕ)) (l : List ℂ) : swapKernel ps l = pairKernel 0 1 1 0 ps l := by
  simp [swapKernel, pairKernel]

theorem antiKernel_eq (b c : ℂ) (ps : List (ℕ × ℕ)) (l : List ℂ) :
    antiKernel b c ps l = pairKernel 0 b c 0 ps l := by
  simp [antiKernel, pairKernel]

theorem setBit_false_of_set {J t : ℕ} (h : J.testBit t = true) : setBit J t false + 2 ^ t = J := by
  have h1 : (setBit J t false).testBit t = false := by simp
  have := setBit_true_of_clear h1
  rw [setBit_setBit, setBit_eq_self h] at this
  exact this.symm

theorem pairKernel_ok (m : M2) (t : ℕ) (is : List ℕ) (l : List ℂ) (hnd : is.Nodup)
    (hb : ∀ I ∈ is, I.testBit t = false) (hlt : ∀ I ∈ is, I + 2 ^ t < l.length) :
    ∃ l', pairKernel (m false false) (m false true) (m true false) (m true true)
        (is.map fun I => (I, I + 2 ^ t)) l = .ok l' ∧ l'.length = l.length ∧
      ∀ J, vec l' J = if setBit J t false ∈ is then op1 t m (vec l) J else vec l J := by
  induction is generalizing l with
  | nil => exact ⟨l, rfl, rfl, fun J => by simp⟩
  | cons I is ih =>
    have hI := hlt I (by simp)
    have hI0 : I < l.length := by have := Nat.two_pow_pos t; omega
    have hIb := hb I (by simp)
    set x0 := vec l I with hx0
    set x1 := vec l (I + 2 ^ t) with hx1
    set l1 := (l.set I (m false false * x0 + m false true * x1)).set (I + 2 ^ t)
      (m true false * x0 + m true true * x1) with hl1
    have len1 : l1.length = l.length := by simp [hl1]
    have hne : I ≠ I + 2 ^ t := by have := Nat.two_pow_pos t; omega
    obtain ⟨l', e1, e2, e3⟩ := ih l1 (List.nodup_cons.1 hnd).2 (fun K hK => hb K (by simp [hK]))
      (fun K hK => by rw [len1]; exact hlt K (by simp [hK]))
    refine ⟨l', ?_, by rw [e2, len1], ?_⟩
    · rw [← e1]
      simp only [pairKernel, List.map_cons, List.foldlM_cons]
      rw [rd_ok hI0]
      simp only [except_ok_bind]
      rw [rd_ok hI]
      simp only [except_ok_bind]
      rw [wr_ok hI0]
      simp only [except_ok_bind]
      rw [wr_ok (by simpa using hI)]
      rfl
    · have hv1 : ∀ J, vec l1 J = if J = I + 2 ^ t then m true false * x0 + m true true * x1
          else if J = I then m false false * x0 + m false true * x1 else vec l J := by
        intro J
        rw [hl1, vec_set _ (by simpa using hI), vec_set _ hI0]
      have hInot := (List.nodup_cons.1 hnd).1
      have hs : setBit I t true = I + 2 ^ t := setBit_true_of_clear hIb
      intro J
      rw [e3]
      by_cases hJ : setBit J t false = I
      · have hnot : setBit J t false ∉ is := by rw [hJ]; exact hInot
        rw [if_neg hnot, if_pos (by simp [hJ]), hv1, op1_apply]
        have hst : setBit J t true = I + 2 ^ t := by rw [← hs, ← hJ, setBit_setBit]
        rw [hJ, hst]
        cases hb' : J.testBit t
        · have : J = I := by rw [← hJ, setBit_eq_self hb']
          rw [this, if_neg hne, if_pos rfl]
        · have : J = I + 2 ^ t := by rw [← hst, setBit_eq_self hb']
          rw [this, if_pos rfl]
      · have hx : ∀ b, setBit J t b ≠ I ∧ setBit J t b ≠ I + 2 ^ t := by
          intro b
          constructor
          · intro e; apply hJ
            have := congrArg (fun z => setBit z t false) e
            simpa [setBit_eq_self hIb] using this
          · intro e; apply hJ
            have := congrArg (fun z => setBit z t false) e
            rw [← hs] at this
            simpa [setBit_eq_self hIb] using this
        have hself := hx (J.testBit t)
        rw [setBit_self] at hself
        have hm : setBit J t false ∈ I :: is ↔ setBit J t false ∈ is := by
          simp [hJ]
        simp only [hm]
        split
        · simp only [op1_apply, hv1]
          rw [if_neg (hx false).2, if_neg (hx false).1, if_neg (hx true).2, if_neg (hx true).1]
        · rw [hv1, if_neg hself.2, if_neg hself.1]

theorem scaleKernel_ok (a : ℂ) (is : List ℕ) (l : List ℂ) (hnd : is.Nodup)
    (hlt : ∀ I ∈ is, I < l.length) :
    ∃ l', scaleKernel a is l = .ok l' ∧ l'.length = l.length ∧
      ∀ J, vec l' J = if J ∈ is then a * vec l J else vec l J := by
  induction is generalizing l with
  | nil => exact ⟨l, rfl, rfl, fun J => by simp⟩
  | cons I is ih =>
    have hI := hlt I (by simp)
    obtain ⟨l', e1, e2, e3⟩ := ih (l.set I (a * vec l I)) (List.nodup_cons.1 hnd).2
      (fun K hK => by simpa using hlt K (by simp [hK]))
    refine ⟨l', ?_, by simpa using e2, ?_⟩
    · rw [← e1]
      simp only [scaleKernel, List.foldlM_cons]
      rw [rd_ok hI]; simp only [except_ok_bind]; rw [wr_ok hI]; rfl
    · intro J
      rw [e3, vec_set _ hI]
      have hInot := (List.nodup_cons.1 hnd).1
      by_cases hJ : J = I
      · subst hJ; simp [hInot]
      · simp [hJ]

/-! ### the strided loops -/

theorem Blk.adv_zero (b : Blk) : b.adv 0 = b := rfl

theorem Blk.adv_adv (b : Blk) (x y : ℕ) : (b.adv x).adv y = b.adv (x + y) := by
  simp [Blk.adv, Nat.add_assoc]

theorem innerLoop_eq {off bound : ℕ} (hoff : 0 < off) (m : ℕ) (b : Blk)
    (h1 : ∀ k < m, b.e + k * off ≤ bound) (h2 : bound < b.e + m * off) :
    innerLoop off bound b = ((List.range m).map fun k => b.adv (k * off), b.adv (m * off)) := by
  induction m generalizing b with
  | zero =>
    rw [innerLoop, if_neg (by simp at h2; omega)]
    simp [Blk.adv_zero]
  | succ m ih =>
    have h0 := h1 0 (by omega)
    rw [innerLoop, if_pos ⟨hoff, by simpa using h0⟩]
    have := ih (b.adv off) (fun k hk => by
        have := h1 (k + 1) (by omega)
        simp only [Blk.adv]; rw [Nat.add_mul] at this; omega)
      (by simp only [Blk.adv]; rw [Nat.add_mul] at h2; omega)
    simp only [this, List.range_succ_eq_map, List.map_cons, List.map_map, Blk.adv_adv]
    congr 1
    · congr 1
      · simp [Blk.adv_zero]
      · apply List.map_congr_left
        intro k _
        simp only [Function.comp]
        congr 1
        rw [Nat.succ_eq_add_one, Nat.add_mul]; omega
    · congr 1; rw [Nat.add_mul]; omega

theorem outerLoop_eq {off obs ooff nb : ℕ} {bound : ℕ → ℕ} (hoff : 0 < off) (hooff : 0 < ooff)
    (m M : ℕ) (oe : ℕ) (b : Blk)
    (h1 : ∀ j < M, oe + j * ooff ≤ nb) (h2 : nb < oe + M * ooff)
    (h3 : ∀ j < M, ∀ k < m, b.e + j * (m * off + obs) + k * off ≤ bound (oe + j * ooff))
    (h4 : ∀ j < M, bound (oe + j * ooff) < b.e + j * (m * off + obs) + m * off) :
    outerLoop off obs ooff nb bound oe b =
      (List.range M).flatMap fun j => (List.range m).map fun k => b.adv (j * (m * off + obs) + k * off) := by
  induction M generalizing oe b with
  | zero =>
    rw [outerLoop, if_neg (by simp at h2; omega)]
    simp
  | succ M ih =>
    have h0 := h1 0 (by omega)
    rw [outerLoop, if_pos ⟨hooff, by simpa using h0⟩]
    have hin := innerLoop_eq hoff m b (bound := bound oe)
      (fun k hk => by simpa using h3 0 (by omega) k hk) (by simpa using h4 0 (by omega))
    have := ih (oe + ooff) ((b.adv (m * off)).adv obs)
      (fun j hj => by have := h1 (j + 1) (by omega); rw [Nat.add_mul] at this; omega)
      (by rw [Nat.add_mul] at h2; omega)
      (fun j hj k hk => by
        have := h3 (j + 1) (by omega) k hk
        have e : oe + (j + 1) * ooff = oe + ooff + j * ooff := by rw [Nat.add_mul]; omega
        rw [e] at this
        rw [Nat.add_mul] at this
        simp only [Blk.adv]; omega)
      (fun j hj => by
        have := h4 (j + 1) (by omega)
        have e : oe + (j + 1) * ooff = oe + ooff + j * ooff := by rw [Nat.add_mul]; omega
        rw [e] at this
        rw [Nat.add_mul] at this
        simp only [Blk.adv]; omega)
    simp only [hin, this, List.range_succ_eq_map, List.flatMap_cons, List.flatMap_map]
    congr 1
    · apply List.map_congr_left; intro k _; simp
    · apply List.flatMap_congr
      intro j _
      apply List.map_congr_left
      intro k _
      simp only [Blk.adv_adv]
      congr 1
      rw [Nat.succ_eq_add_one, Nat.add_mul]; omega

theorem forStep_eq {step : ℕ} (hs : 0 < step) (m start stop : ℕ)
    (h1 : ∀ k < m, start + k * step < stop) (h2 : stop ≤ start + m * step) :
    forStep start stop step = (List.range m).map fun k => start + k * step := by
  induction m generalizing start with
  | zero => rw [forStep, if_neg (by simp at h2; omega)]; simp
  | succ m ih =>
    have h0 := h1 0 (by omega)
    rw [forStep, if_pos ⟨hs, by simpa using h0⟩]
    have := ih (start + step) (fun k hk => by
        have := h1 (k + 1) (by omega); rw [Nat.add_mul] at this; omega)
      (by rw [Nat.add_mul] at h2; omega)
    rw [this, List.range_succ_eq_map, List.map_cons, List.map_map]
    congr 1
    · simp
    · apply List.map_congr_left
      intro k _
      simp only [Function.comp, Nat.succ_eq_add_one, Nat.add_mul]; omega

theorem Blk.pairs_eq {b : Blk} {d : ℕ} (h : b.s1 = b.s0 + d) :
    b.pairs = b.idxs.map fun I => (I, I + d) := by
  simp only [Blk.pairs, Blk.idxs, List.map_map]
  apply List.map_congr_left
  intro k _
  simp only [Function.comp, h, Prod.mk.injEq, true_and]; omega

theorem pairwise_flatMap_range {f : ℕ → List ℕ} (S base M : ℕ)
    (h1 : ∀ k < M, (f k).Pairwise (· < ·))
    (h2 : ∀ k < M, ∀ x ∈ f k, base + k * S ≤ x ∧ x < base + (k + 1) * S) :
    ((List.range M).flatMap f).Pairwise (· < ·) := by
  induction M with
  | zero => simp
  | succ M ih =>
    rw [List.range_succ, List.flatMap_append, List.pairwise_append]
    refine ⟨ih (fun k hk => h1 k (by omega)) (fun k hk => h2 k (by omega)), by simpa using h1 M (by omega), ?_⟩
    intro a ha b hb
    rw [List.mem_flatMap] at ha
    obtain ⟨k, hk, hak⟩ := ha
    have hk' := List.mem_range.1 hk
    have hb' : b ∈ f M := by simpa using hb
    have e1 := (h2 k (by omega) a hak).2
    have e2 := (h2 M (by omega) b hb').1
    have : (k + 1) * S ≤ M * S := Nat.mul_le_mul_right _ hk'
    omega

theorem idxs_pairwise (b : Blk) : b.idxs.Pairwise (· < ·) := by
  unfold Blk.idxs
  rw [List.pairwise_map]
  exact List.Pairwise.imp (by intros; omega) List.pairwise_lt_range

theorem mem_idxs {b : Blk} {x : ℕ} : x ∈ b.idxs ↔ b.s0 ≤ x ∧ x < b.e := by
  unfold Blk.idxs
  rw [List.mem_map]
  constructor
  · rintro ⟨k, hk, rfl⟩
    have := List.mem_range.1 hk
    omega
  · rintro ⟨h1, h2⟩
    exact ⟨x - b.s0, List.mem_range.2 (by omega), by omega⟩

/-- digits: `I = j*2^(p+1) + b*2^p + i` -/
theorem testBit_digit {p j i : ℕ} (b : Bool) (hi : i < 2 ^ p) :
    (j * 2 ^ (p + 1) + b.toNat * 2 ^ p + i).testBit p = b := by
  rw [testBit_eq_div]
  have : (j * 2 ^ (p + 1) + b.toNat * 2 ^ p + i) / 2 ^ p = 2 * j + b.toNat := by
    have e : j * 2 ^ (p + 1) + b.toNat * 2 ^ p + i = i + 2 ^ p * (2 * j + b.toNat) := by ring
    rw [e, Nat.add_mul_div_left _ _ (Nat.two_pow_pos p), Nat.div_eq_of_lt hi]; omega
  rw [this]
  cases b <;> simp

theorem exists_digit (I p : ℕ) :
    ∃ j i, i < 2 ^ p ∧ I = j * 2 ^ (p + 1) + (I.testBit p).toNat * 2 ^ p + i := by
  refine ⟨I / 2 ^ (p + 1), I % 2 ^ p, Nat.mod_lt _ (Nat.two_pow_pos p), ?_⟩
  have h1 := Nat.div_add_mod I (2 ^ (p+1))
  have h2 : I % 2 ^ (p+1) = I % 2 ^ p + 2 ^ p * (I / 2 ^ p % 2) := by
    rw [Nat.mod_pow_succ]
  have h3 : (I.testBit p).toNat = I / 2 ^ p % 2 := by
    rw [testBit_eq_div]
    rcases Nat.mod_two_eq_zero_or_one (I / 2 ^ p) with h | h <;> simp [h]
  rw [h3]
  rw [Nat.mul_comm] at h1
  rw [Nat.mul_comm (I / 2 ^ p % 2)]
  omega

end QF
