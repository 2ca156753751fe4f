import Verif.Model.Tapering
import Mathlib.Algebra.BigOperators.Group.Finset.Basic
import Mathlib.Algebra.BigOperators.Ring.Finset
import Mathlib.Data.ZMod.Basic
import Mathlib.Tactic

/-! C54: `find_parity_check_matrix_kernel` returns a basis of the kernel. -/
namespace QF
namespace Taper
open Finset

/-- equal up to column `N` -/
def EqOn (N : ℕ) (c d : ℕ → ZMod 2) : Prop := ∀ j < N, c j = d j

/-- `M'` arises from `M` by invertible column operations on the first `N` columns -/
def ColOp (N : ℕ) (M M' : ℕ → ℕ → ZMod 2) : Prop :=
  ∃ P : (ℕ → ZMod 2) ≃ (ℕ → ZMod 2), (∀ c d, EqOn N c d ↔ EqOn N (P c) (P d)) ∧ P 0 = 0 ∧
    ∀ i c, ∑ j ∈ range N, M' i j * c j = ∑ j ∈ range N, M i j * P c j

theorem ColOp.refl (N : ℕ) (M : ℕ → ℕ → ZMod 2) : ColOp N M M := ⟨Equiv.refl _, fun _ _ => Iff.rfl, rfl, fun _ _ => rfl⟩

theorem ColOp.trans {N : ℕ} {A B C : ℕ → ℕ → ZMod 2} (h : ColOp N A B) (h' : ColOp N B C) : ColOp N A C := by
  obtain ⟨P, p1, p2, p3⟩ := h
  obtain ⟨Q, q1, q2, q3⟩ := h'
  exact ⟨Q.trans P, fun c d => (q1 c d).trans (p1 _ _), by simp [q2, p2], fun i c => by rw [q3, p3]; rfl⟩

theorem add_self2 (x : ZMod 2) : x + x = 0 := by revert x; decide

theorem ColOp.swap {N : ℕ} (M : ℕ → ℕ → ZMod 2) {a b : ℕ} (ha : a < N) (hb : b < N) : ColOp N M (swapCols M a b) := by
  refine ⟨⟨fun c => c ∘ Equiv.swap a b, fun c => c ∘ Equiv.swap a b, fun c => by funext x; simp, fun c => by funext x; simp⟩, ?_, rfl, ?_⟩
  · have hlt : ∀ j < N, Equiv.swap a b j < N := by
      intro j hj
      rw [Equiv.swap_apply_def]; split_ifs <;> omega
    intro c d
    constructor
    · intro h j hj; exact h _ (hlt j hj)
    · intro h j hj
      have := h _ (hlt j hj)
      simpa using this
  · intro i c
    refine Finset.sum_nbij' (Equiv.swap a b) (Equiv.swap a b) ?_ ?_ ?_ ?_ ?_
    · intro j hj; rw [mem_range] at hj ⊢; rw [Equiv.swap_apply_def]; split_ifs <;> omega
    · intro j hj; rw [mem_range] at hj ⊢; rw [Equiv.swap_apply_def]; split_ifs <;> omega
    · intro j _; simp
    · intro j _; simp
    · intro j _
      have : swapCols M a b i j = M i (Equiv.swap a b j) := by
        unfold swapCols; rw [Equiv.swap_apply_def]; split_ifs <;> rfl
      rw [this]; simp

theorem ColOp.xor {N : ℕ} (M : ℕ → ℕ → ZMod 2) {a b : ℕ} (ha : a < N) (hb : b < N) (hab : a ≠ b) : ColOp N M (xorCol M a b) := by
  have inv : ∀ c : ℕ → ZMod 2, Function.update (Function.update c a (c a + c b)) a ((Function.update c a (c a + c b)) a + (Function.update c a (c a + c b)) b) = c := by
    intro c
    funext x
    by_cases hx : x = a
    · subst hx
      simp only [Function.update_self, Function.update_of_ne hab.symm]
      rw [add_assoc, add_self2, add_zero]
    · simp [Function.update_of_ne hx]
  refine ⟨⟨fun c => Function.update c a (c a + c b), fun c => Function.update c a (c a + c b), inv, inv⟩, ?_, ?_, ?_⟩
  · have key : ∀ c d : ℕ → ZMod 2, EqOn N c d → EqOn N (Function.update c a (c a + c b)) (Function.update d a (d a + d b)) := by
      intro c d h j hj
      by_cases hx : j = a
      · subst hx; simp [h j ha, h b hb]
      · simp [Function.update_of_ne hx, h j hj]
    intro c d
    refine ⟨key c d, fun h => ?_⟩
    have := key _ _ h
    simp only [Equiv.coe_fn_mk] at this
    rwa [inv, inv] at this
  · funext x; simp [Function.update_apply]
  · intro i c
    have e : ∀ j ∈ range N, xorCol M a b i j * c j = M i j * c j + if j = b then M i a * c b else 0 := by
      intro j _
      unfold xorCol
      split_ifs with h
      · subst h; ring
      · ring
    rw [Finset.sum_congr rfl e, Finset.sum_add_distrib, Finset.sum_ite_eq' , if_pos (mem_range.2 hb)]
    have e' : ∀ j ∈ range N, M i j * (Function.update c a (c a + c b)) j = M i j * c j + if j = a then M i a * c b else 0 := by
      intro j _
      by_cases h : j = a
      · subst h; simp; ring
      · simp [Function.update_of_ne h, h]
    show _ = ∑ j ∈ range N, M i j * (Function.update c a (c a + c b)) j
    rw [Finset.sum_congr rfl e', Finset.sum_add_distrib, Finset.sum_ite_eq', if_pos (mem_range.2 ha)]

/-- the state after the rows in `done` -/
structure KInv (N ns : ℕ) (M₀ : ℕ → ℕ → ZMod 2) (done : ℕ) (s : (ℕ → ℕ → ZMod 2) × ℕ) : Prop where
  le : s.2 ≤ N
  col : ColOp N M₀ s.1
  zero : ∀ i < done, ∀ j, s.2 ≤ j → j < N → s.1 i j = 0
  pivot : ∃ r : ℕ → ℕ, ∀ k < s.2, r k < done ∧ s.1 (r k) k = 1 ∧ ∀ j, k < j → j < N → s.1 (r k) j = 0

theorem z2_ne {x : ZMod 2} (h : x ≠ 0) : x = 1 := by revert x; decide

/-- xor-ing the pivot column into a list of columns -/
theorem xorFold (N : ℕ) (idx : ℕ) (hidx : idx < N) : ∀ (l : List ℕ) (M : ℕ → ℕ → ZMod 2), l.Nodup → (∀ k ∈ l, 0 < k ∧ k + idx < N) →
    ColOp N M (l.foldl (fun M k => xorCol M idx (k + idx)) M) ∧
    ∀ i j, (l.foldl (fun M k => xorCol M idx (k + idx)) M) i j = if ∃ k ∈ l, j = k + idx then M i idx + M i j else M i j
  | [], M, _, _ => ⟨ColOp.refl _ _, fun i j => by simp⟩
  | k :: l, M, hn, h => by
    rw [List.nodup_cons] at hn
    obtain ⟨h1, h2⟩ := xorFold N idx hidx l (xorCol M idx (k + idx)) hn.2 (fun k hk => h k (by simp [hk]))
    have hk := h k (by simp)
    refine ⟨(ColOp.xor M hidx hk.2 (by omega)).trans h1, ?_⟩
    intro i j
    rw [List.foldl_cons, h2]
    have hi : xorCol M idx (k + idx) i idx = M i idx := by unfold xorCol; rw [if_neg (by omega)]
    rw [hi]
    by_cases hj : j = k + idx
    · rw [if_neg, if_pos ⟨k, by simp, hj⟩]
      · unfold xorCol; rw [if_pos hj, hj]
      · rintro ⟨k', hk', e⟩
        have : k' = k := by omega
        exact hn.1 (this ▸ hk')
    · have : xorCol M idx (k + idx) i j = M i j := by unfold xorCol; rw [if_neg hj]
      rw [this]
      refine if_congr ?_ rfl rfl
      simp [hj]

theorem kernelStep_inv {N ns : ℕ} {M₀ : ℕ → ℕ → ZMod 2} {done : ℕ} {s : (ℕ → ℕ → ZMod 2) × ℕ} (h : KInv N ns M₀ done s) :
    KInv N ns M₀ (done + 1) (kernelStep N s done) := by
  obtain ⟨M, idx⟩ := s
  unfold kernelStep
  simp only []
  split
  · rename_i e
    refine ⟨h.le, h.col, ?_, ?_⟩
    · intro i hi j hj hjN
      rcases Nat.lt_succ_iff_lt_or_eq.1 hi with hi | rfl
      · exact h.zero i hi j hj hjN
      · by_contra hc
        have : j - idx ∈ (List.range (N - idx)).filter (fun k => M i (idx + k) ≠ 0) := by
          rw [List.mem_filter, List.mem_range]
          refine ⟨by simp only [] at hj; omega, ?_⟩
          simp only [] at hj
          rw [show idx + (j - idx) = j by omega]; simpa using hc
        rw [e] at this; simp at this
    · obtain ⟨r, hr⟩ := h.pivot
      exact ⟨r, fun k hk => ⟨by have := (hr k hk).1; omega, (hr k hk).2⟩⟩
  · rename_i k0 rest e
    have hsorted : (k0 :: rest).Pairwise (· < ·) := by rw [← e]; exact List.pairwise_lt_range.filter _
    have hmem : ∀ k, k ∈ k0 :: rest ↔ k < N - idx ∧ M done (idx + k) ≠ 0 := by
      intro k; rw [← e, List.mem_filter, List.mem_range]; simp
    rw [List.pairwise_cons] at hsorted
    have hk0 := (hmem k0).1 (by simp)
    have hidx : idx < N := by omega
    have hrest : ∀ k ∈ rest, 0 < k ∧ k + idx < N := by
      intro k hk
      have := hsorted.1 k hk
      have := (hmem k).1 (by simp [hk])
      omega
    obtain ⟨c1, c2⟩ := xorFold N idx hidx rest (swapCols M (k0 + idx) idx) (hsorted.2.imp (fun h => Nat.ne_of_lt h)) hrest
    have hsw : ∀ i j, swapCols M (k0 + idx) idx i j = if j = k0 + idx then M i idx else if j = idx then M i (k0 + idx) else M i j := fun i j => rfl
    have swlt : ∀ i j, j < idx → swapCols M (k0 + idx) idx i j = M i j := by
      intro i j hj; rw [hsw, if_neg (by omega), if_neg (by omega)]
    have swidx : ∀ i, swapCols M (k0 + idx) idx i idx = M i (k0 + idx) := by
      intro i; rw [hsw]
      by_cases h1 : idx = k0 + idx
      · rw [if_pos h1, ← h1]
      · rw [if_neg h1, if_pos rfl]
    have low : ∀ i j, j < idx → (rest.foldl (fun M k => xorCol M idx (k + idx)) (swapCols M (k0 + idx) idx)) i j = M i j := by
      intro i j hj
      rw [c2, if_neg, swlt i j hj]
      rintro ⟨k, hk, e⟩; omega
    have atidx : ∀ i, (rest.foldl (fun M k => xorCol M idx (k + idx)) (swapCols M (k0 + idx) idx)) i idx = M i (k0 + idx) := by
      intro i
      rw [c2, if_neg, swidx]
      rintro ⟨k, hk, e⟩; have := hrest k hk; omega
    have zeroRow : ∀ i, (∀ j, idx ≤ j → j < N → M i j = 0) → ∀ j, idx ≤ j → j < N →
        (rest.foldl (fun M k => xorCol M idx (k + idx)) (swapCols M (k0 + idx) idx)) i j = 0 := by
      intro i hz j hj hjN
      have z : ∀ j, idx ≤ j → j < N → swapCols M (k0 + idx) idx i j = 0 := by
        intro j hj hjN; rw [hsw]; split_ifs <;> apply hz <;> omega
      rw [c2]; split_ifs
      · rw [z idx (le_refl _) hidx, z j hj hjN, add_zero]
      · exact z j hj hjN
    refine ⟨hidx, h.col.trans ((ColOp.swap M (by omega) hidx).trans c1), ?_, ?_⟩
    · intro i hi j hj hjN
      simp only [] at hj ⊢
      rcases Nat.lt_succ_iff_lt_or_eq.1 hi with hi | rfl
      · exact zeroRow i (fun j h1 h2 => h.zero i hi j h1 h2) j (by omega) hjN
      · rw [c2]
        split_ifs with hx
        · obtain ⟨k, hk, rfl⟩ := hx
          have h0 := hsorted.1 k hk
          rw [swidx, hsw, if_neg (by omega), if_neg (by omega), add_comm k0, z2_ne hk0.2, add_comm k,
            z2_ne ((hmem k).1 (by simp [hk])).2]
          decide
        · rw [hsw]
          split_ifs with h1 h2
          · by_contra hc
            have := (hmem 0).2 ⟨by omega, by simpa using hc⟩
            rcases List.mem_cons.1 this with h0 | h0
            · omega
            · have := hsorted.1 0 h0; omega
          · omega
          · by_contra hc
            have := (hmem (j - idx)).2 ⟨by omega, by rw [show idx + (j - idx) = j by omega]; exact hc⟩
            rcases List.mem_cons.1 this with h0 | h0
            · omega
            · exact hx ⟨j - idx, h0, by omega⟩
    · obtain ⟨r, hr⟩ := h.pivot
      refine ⟨Function.update r idx done, ?_⟩
      intro k hk
      simp only [] at hk ⊢
      by_cases hki : k = idx
      · subst hki
        rw [Function.update_self]
        refine ⟨by omega, by rw [atidx, add_comm]; exact z2_ne hk0.2, ?_⟩
        intro j hj hjN
        -- same computation as above
        rw [c2]
        split_ifs with hx
        · obtain ⟨k', hk', rfl⟩ := hx
          have h0 := hsorted.1 k' hk'
          rw [swidx, hsw, if_neg (by omega), if_neg (by omega), add_comm k0, z2_ne hk0.2, add_comm k',
            z2_ne ((hmem k').1 (by simp [hk'])).2]
          decide
        · rw [hsw]
          split_ifs with h1 h2
          · by_contra hc
            have := (hmem 0).2 ⟨by omega, by simpa using hc⟩
            rcases List.mem_cons.1 this with h0 | h0
            · omega
            · have := hsorted.1 0 h0; omega
          · omega
          · by_contra hc
            have := (hmem (j - k)).2 ⟨by omega, by rw [show k + (j - k) = j by omega]; exact hc⟩
            rcases List.mem_cons.1 this with h0 | h0
            · omega
            · exact hx ⟨j - k, h0, by omega⟩
      · rw [Function.update_of_ne hki]
        have hk' : k < idx := by omega
        obtain ⟨r1, r2, r3⟩ := hr k hk'
        simp only [] at r1 r2 r3
        refine ⟨by omega, by rw [low _ _ hk']; exact r2, ?_⟩
        intro j hj hjN
        by_cases hji : j < idx
        · rw [low _ _ hji]; exact r3 j hj hjN
        · exact zeroRow (r k) (fun j h1 h2 => r3 j (by omega) h2) j (by omega) hjN

theorem kernel_loop (N ns : ℕ) (M₀ : ℕ → ℕ → ZMod 2) : ∀ d, KInv N ns M₀ d ((List.range d).foldl (kernelStep N) (M₀, 0)) := by
  intro d
  induction d with
  | zero => exact ⟨Nat.zero_le _, ColOp.refl _ _, fun i hi => by omega, ⟨id, fun k hk => by simp at hk⟩⟩
  | succ d ih => rw [List.range_succ, List.foldl_append]; exact kernelStep_inv ih

/-- `v` is in the kernel of the matrix -/
def InKernel (E : BMat) (v : ℕ → ZMod 2) : Prop := ∀ i < E.rows, ∑ j ∈ range E.cols, E.e i j * v j = 0

/-- the combination `Σ_r c_r row_r` of the rows of a matrix -/
def comb (B : BMat) (c : ℕ → ZMod 2) : ℕ → ZMod 2 := fun k => ∑ r ∈ range B.rows, c r * B.e r k

/-- the rows are linearly independent -/
def Independent (B : BMat) : Prop := ∀ c, EqOn B.cols (comb B c) 0 → ∀ r < B.rows, c r = 0

/-- `v` is a combination of the rows -/
def InSpan (B : BMat) (v : ℕ → ZMod 2) : Prop := ∃ c, EqOn B.cols v (comb B c)

theorem sum_single (N : ℕ) (f : ℕ → ZMod 2) {j : ℕ} (hj : j < N) : ∑ k ∈ range N, f k * (Pi.single j 1 : ℕ → ZMod 2) k = f j := by
  rw [Finset.sum_eq_single j]
  · simp
  · intro b _ hb; simp [Pi.single_eq_of_ne hb]
  · intro h; exact absurd (mem_range.2 hj) h

/-- C54: whatever the binary matrix, the rows returned are a basis of its kernel: each is in the kernel, they are linearly
independent, and every kernel vector is a combination of them. -/
theorem C54_kernel_basis (E : BMat) : (kernel E).cols = E.cols ∧ (∀ r < (kernel E).rows, InKernel E ((kernel E).e r)) ∧ Independent (kernel E) ∧
    ∀ v, InKernel E v → InSpan (kernel E) v := by
  set aug : ℕ → ℕ → ZMod 2 := fun i j => if i < E.rows then E.e i j else if i - E.rows = j then 1 else 0 with haug
  have inv := kernel_loop E.cols E.rows aug E.rows
  set s := (List.range E.rows).foldl (kernelStep E.cols) (aug, 0) with hs
  obtain ⟨P, p1, p2, p3⟩ := inv.col
  obtain ⟨r, hr⟩ := inv.pivot
  have hcols : ((List.range E.cols).drop s.2).filter (fun c => (List.range E.rows).all fun i => s.1 i c = 0) = (List.range (E.cols - s.2)).map (fun k => s.2 + k) := by
    have : (List.range E.cols).drop s.2 = (List.range (E.cols - s.2)).map (fun k => s.2 + k) := by
      have h := List.range_add (n := s.2) (m := E.cols - s.2)
      rw [Nat.add_sub_cancel' inv.le] at h
      rw [h, List.drop_left' (by simp)]
    rw [this, List.filter_eq_self]
    intro c hc
    obtain ⟨k, hk, rfl⟩ := List.mem_map.1 hc
    rw [List.all_eq_true]
    intro i hi
    have := inv.zero i (List.mem_range.1 hi) (s.2 + k) (by omega) (by have := List.mem_range.1 hk; omega)
    simpa using this
  have hK : kernel E = { rows := E.cols - s.2, cols := E.cols, e := fun a k => s.1 (E.rows + k) (((List.range (E.cols - s.2)).map (fun k => s.2 + k)).getD a 0) } := by
    unfold kernel
    simp only [← haug, ← hs]
    rw [hcols]; simp
  have hget : ∀ a < E.cols - s.2, ((List.range (E.cols - s.2)).map (fun k => s.2 + k)).getD a 0 = s.2 + a := by
    intro a ha
    rw [List.getD_eq_getElem _ _ (by simpa using ha)]; simp
  -- the lower block of the final matrix maps `c` to `P c`
  have lower : ∀ c, ∀ k < E.cols, ∑ j ∈ range E.cols, s.1 (E.rows + k) j * c j = P c k := by
    intro c k hk
    rw [p3]
    have : ∀ j ∈ range E.cols, aug (E.rows + k) j * P c j = if j = k then P c k else 0 := by
      intro j _
      rw [haug]; simp only []
      rw [if_neg (by omega), show E.rows + k - E.rows = k by omega]
      split_ifs with h1 h2 h2
      · rw [h1, one_mul]
      · exact absurd h1.symm h2
      · exact absurd h2.symm h1
      · rw [zero_mul]
    rw [Finset.sum_congr rfl this, Finset.sum_ite_eq', if_pos (mem_range.2 hk)]
  have upper : ∀ c, ∀ i < E.rows, ∑ j ∈ range E.cols, E.e i j * P c j = ∑ j ∈ range E.cols, s.1 i j * c j := by
    intro c i hi
    rw [p3]
    apply Finset.sum_congr rfl
    intro j _
    rw [haug]; simp only []; rw [if_pos hi]
  -- combinations of the basis
  have hcomb : ∀ c : ℕ → ZMod 2, ∀ k < E.cols, comb (kernel E) c k = P (fun j => if s.2 ≤ j then c (j - s.2) else 0) k := by
    intro c k hk
    rw [← lower _ k hk, hK]
    show ∑ a ∈ range (E.cols - s.2), _ = _
    have h1 : ∑ j ∈ range E.cols, s.1 (E.rows + k) j * (if s.2 ≤ j then c (j - s.2) else 0) =
        ∑ j ∈ range (s.2 + (E.cols - s.2)), s.1 (E.rows + k) j * (if s.2 ≤ j then c (j - s.2) else 0) := by
      rw [Nat.add_sub_cancel' inv.le]
    rw [h1, Finset.sum_range_add, Finset.sum_eq_zero (s := range s.2), zero_add]
    · apply Finset.sum_congr rfl
      intro a ha
      simp only []
      rw [hget a (mem_range.1 ha), if_pos (by omega), show s.2 + a - s.2 = a by omega, mul_comm]
    · intro j hj
      have := mem_range.1 hj
      rw [if_neg (by omega), mul_zero]
  refine ⟨by rw [hK], ?_, ?_, ?_⟩
  · intro a ha i hi
    rw [hK] at ha
    simp only [] at ha
    have e : ∀ k ∈ range E.cols, E.e i k * (kernel E).e a k = E.e i k * P (Pi.single (s.2 + a) 1) k := by
      intro k hk
      rw [← lower _ k (mem_range.1 hk), sum_single _ _ (by omega), hK]
      simp only []
      rw [hget a ha]
    rw [Finset.sum_congr rfl e, upper _ i hi, sum_single _ _ (by omega)]
    exact inv.zero i hi _ (by omega) (by omega)
  · intro c hc a ha
    rw [hK] at ha
    simp only [] at ha
    have : EqOn E.cols (P (fun j => if s.2 ≤ j then c (j - s.2) else 0)) (P 0) := by
      intro k hk
      rw [← hcomb c k hk, p2]
      exact hc k (by rw [hK]; exact hk)
    have := ((p1 _ _).2 this) (s.2 + a) (by omega)
    simpa using this
  · intro v hv
    obtain ⟨c, rfl⟩ := P.surjective v
    -- the pivots force the first coefficients to vanish
    have hz : ∀ k < s.2, c k = 0 := by
      intro k
      induction k using Nat.strong_induction_on with
      | _ k ih =>
        intro hk
        obtain ⟨r1, r2, r3⟩ := hr k hk
        have := hv (r k) r1
        rw [upper c (r k) r1, Finset.sum_eq_single k, r2, one_mul] at this
        · exact this
        · intro j hj hne
          rcases Nat.lt_or_gt_of_ne hne with h | h
          · rw [ih j h (by omega), mul_zero]
          · rw [r3 j h (mem_range.1 hj), zero_mul]
        · intro h; exact absurd (mem_range.2 (by have := inv.le; omega)) h
    refine ⟨fun a => c (s.2 + a), ?_⟩
    intro k hk
    have hk' : k < E.cols := by rw [hK] at hk; exact hk
    rw [hcomb _ k hk']
    refine (p1 _ _).1 ?_ k hk'
    intro j _
    simp only []
    split_ifs with h
    · rw [show s.2 + (j - s.2) = j by omega]
    · exact hz j (by omega)

/-- the theorem is about a non-trivial matrix: the parity check of `Z₀ Z₁` (`E = (1 1 | 0 0)`) has a three-dimensional kernel -/
theorem C54_example : (kernel { rows := 1, cols := 4, e := fun _ j => if j < 2 then 1 else 0 }).rows = 3 := by decide

end Taper
end QF
