import Verif.Spec.Excitation
import Verif.Model.SQPool
import Mathlib.Data.List.Sort
import Mathlib.Order.Lattice
import Mathlib.Data.Bool.Basic
import Mathlib.Data.List.Lex
import Mathlib.Order.Interval.Finset.Defs

/-! Bit strings of determinants and their permutations. -/
namespace QF
namespace SQOpPool

/-! ### numbers and strings -/

theorem ofBitStr_fold (s : List Bool) : ∀ v, s.foldl (fun v b => 2 * v + b.toNat) v = v * 2 ^ s.length + ofBitStr s := by
  unfold ofBitStr
  induction s with
  | nil => intro v; simp
  | cons b s ih =>
    intro v
    rw [List.foldl_cons, List.foldl_cons, ih, ih (2 * 0 + b.toNat), List.length_cons, pow_succ]; ring

theorem ofBitStr_cons (b : Bool) (s : List Bool) : ofBitStr (b :: s) = b.toNat * 2 ^ s.length + ofBitStr s := by
  rw [ofBitStr, List.foldl_cons, ofBitStr_fold]; simp

theorem ofBitStr_lt (s : List Bool) : ofBitStr s < 2 ^ s.length := by
  induction s with
  | nil => simp [ofBitStr]
  | cons b s ih =>
    rw [ofBitStr_cons, List.length_cons, pow_succ]
    cases b <;> simp <;> omega

theorem ofBitStr_testBit (s : List Bool) (p : ℕ) : (ofBitStr s).testBit p = (decide (p < s.length) && s.getD (s.length - 1 - p) false) := by
  induction s with
  | nil => simp [ofBitStr]
  | cons b s ih =>
    rw [ofBitStr_cons, mul_comm, Nat.testBit_two_pow_mul_add _ (ofBitStr_lt s), List.length_cons]
    by_cases h : p < s.length
    · rw [if_pos h, ih]
      simp only [h, decide_true, Bool.true_and, show p < s.length + 1 by omega]
      rw [show s.length + 1 - 1 - p = (s.length - 1 - p) + 1 by omega, List.getD_cons_succ]
    · rw [if_neg h]
      by_cases h' : p = s.length
      · subst h'; simp; cases b <;> rfl
      · have : 0 < p - s.length := by omega
        rw [Nat.testBit_lt_two_pow]
        · simp; omega
        · have : 2 ^ 1 ≤ 2 ^ (p - s.length) := Nat.pow_le_pow_right (by norm_num) this
          cases b <;> simp <;> omega

theorem ofBitStr_lt_iff : ∀ (s t : List Bool), s.length = t.length → (s < t ↔ ofBitStr s < ofBitStr t) := by
  intro s
  induction s with
  | nil => intro t h; cases t with
    | nil => simp
    | cons => simp at h
  | cons b s ih =>
    intro t h
    cases t with
    | nil => simp at h
    | cons c t =>
      have hl : s.length = t.length := by simpa using h
      have h1 := ofBitStr_lt s
      have h2 := ofBitStr_lt t
      rw [List.cons_lt_cons_iff, ih t hl, ofBitStr_cons, ofBitStr_cons, ← hl]
      rw [← hl] at h2
      cases b <;> cases c <;> simp only [Bool.toNat_true, Bool.toNat_false, Nat.one_mul, Nat.zero_mul, Nat.zero_add, lt_self_iff_false, false_or, true_and,
        Bool.false_lt_true, true_or, true_iff, Bool.true_eq_false, false_and, or_false] <;> first | omega | skip
      constructor
      · intro h; exact absurd h (by decide)
      · intro h; omega

theorem ofBitStr_le_iff {s t : List Bool} (h : s.length = t.length) : s ≤ t ↔ ofBitStr s ≤ ofBitStr t := by
  rw [← not_lt, ← not_lt, ofBitStr_lt_iff t s h.symm]

/-! ### alpha and beta strings -/

/-- occupation of the alpha (`σ = 0`) or beta (`σ = 1`) orbitals of `k` spatial orbitals, highest first -/
def spinStr (σ k d : ℕ) : List Bool := (List.range k).map fun j => d.testBit (2 * (k - 1 - j) + σ)

theorem spinStr_length (σ k d : ℕ) : (spinStr σ k d).length = k := by simp [spinStr]

theorem spinStr_getD {σ k d j : ℕ} (h : j < k) : (spinStr σ k d).getD j false = d.testBit (2 * (k - 1 - j) + σ) := by
  simp [spinStr, h]

theorem spinStr_succ (σ k d : ℕ) : spinStr σ (k + 1) d = d.testBit (2 * k + σ) :: spinStr σ k d := by
  unfold spinStr
  rw [List.range_succ_eq_map, List.map_cons, List.map_map]
  congr 1
  apply List.map_congr_left
  intro j hj
  have := List.mem_range.1 hj
  simp only [Function.comp, Nat.succ_eq_add_one, show k + 1 - 1 - (j + 1) = k - 1 - j by omega]

theorem spinStr_val (σ k d : ℕ) : ofBitStr (spinStr σ k d) = spinVal σ k d := by
  induction k with
  | zero => rfl
  | succ k ih =>
    rw [spinStr_succ, ofBitStr_cons, ih, spinStr_length, spinVal, spinVal, Finset.sum_range_succ, Nat.add_comm]
    cases d.testBit (2 * k + σ) <;> simp

theorem spinStr_count (σ k d : ℕ) : (spinStr σ k d).count true = spinNum σ k d := by
  induction k with
  | zero => rfl
  | succ k ih =>
    rw [spinStr_succ, List.count_cons, ih, spinNum, spinNum, List.range_succ, List.countP_append]
    cases h : d.testBit (2 * k + σ) <;> simp [h]

theorem perm_bool {s t : List Bool} : s.Perm t ↔ s.length = t.length ∧ s.count true = t.count true := by
  have hl : ∀ s : List Bool, s.length = s.count true + s.count false := by
    intro s
    induction s with
    | nil => rfl
    | cons b s ih => cases b <;> simp [ih] <;> omega
  constructor
  · intro h; exact ⟨h.length_eq, h.count_eq _⟩
  · rintro ⟨h1, h2⟩
    rw [List.perm_iff_count]
    intro b
    have := hl s; have := hl t
    cases b <;> omega

/-! ### splitting and interleaving -/

theorem range_odd (k : ℕ) : ((List.range (2 * k)).filter fun i => decide (i % 2 ≠ 0)) = (List.range k).map fun j => 2 * j + 1 := by
  induction k with
  | zero => rfl
  | succ k ih =>
    rw [show 2 * (k + 1) = (2 * k + 1) + 1 by ring, List.range_succ, List.range_succ, List.filter_append, List.filter_append, ih, List.range_succ, List.map_append]
    simp [Nat.add_mod]

theorem range_even (k : ℕ) : ((List.range (2 * k)).filter fun i => decide (i % 2 = 0)) = (List.range k).map fun j => 2 * j := by
  induction k with
  | zero => rfl
  | succ k ih =>
    rw [show 2 * (k + 1) = (2 * k + 1) + 1 by ring, List.range_succ, List.range_succ, List.filter_append, List.filter_append, ih, List.range_succ, List.map_append]
    simp [Nat.add_mod]

theorem bitStr_length (n x : ℕ) : (bitStr n x).length = n := by simp [bitStr]
theorem bitStr_getD {n x i : ℕ} (h : i < n) : (bitStr n x).getD i false = x.testBit (n - 1 - i) := by simp [bitStr, h]

theorem splitAlpha_eq (k d : ℕ) : splitAlpha (bitStr (2 * k) d) = spinStr 0 k d := by
  unfold splitAlpha spinStr
  rw [bitStr_length, range_odd, List.map_map]
  apply List.map_congr_left
  intro j hj
  have := List.mem_range.1 hj
  simp only [Function.comp]
  rw [bitStr_getD (by omega)]
  congr 1; omega

theorem splitBeta_eq (k d : ℕ) : splitBeta (bitStr (2 * k) d) = spinStr 1 k d := by
  unfold splitBeta spinStr
  rw [bitStr_length, range_even, List.map_map]
  apply List.map_congr_left
  intro j hj
  have := List.mem_range.1 hj
  simp only [Function.comp]
  rw [bitStr_getD (by omega)]
  congr 1; omega

theorem interleave_length (a b : List Bool) : (interleave a b).length = 2 * a.length := by
  simp [interleave, List.length_flatMap]; ring

theorem interleave_cons (x y : Bool) (a b : List Bool) : interleave (x :: a) (y :: b) = y :: x :: interleave a b := by
  unfold interleave
  rw [List.length_cons, List.range_succ_eq_map, List.flatMap_cons, List.flatMap_map]
  simp

theorem interleave_spin : ∀ (a b : List Bool), a.length = b.length →
    spinStr 0 a.length (ofBitStr (interleave a b)) = a ∧ spinStr 1 a.length (ofBitStr (interleave a b)) = b := by
  intro a
  induction a with
  | nil => intro b h; cases b with
    | nil => exact ⟨rfl, rfl⟩
    | cons => simp at h
  | cons x a ih =>
    intro b h
    cases b with
    | nil => simp at h
    | cons y b =>
      have hl : a.length = b.length := by simpa using h
      obtain ⟨h1, h2⟩ := ih b hl
      have hlen := interleave_length a b
      have lt := ofBitStr_lt (interleave a b)
      have lt2 := ofBitStr_lt (x :: interleave a b)
      have low : ∀ σ, σ < 2 → spinStr σ a.length (ofBitStr (interleave (x :: a) (y :: b))) = spinStr σ a.length (ofBitStr (interleave a b)) := by
        intro σ hσ
        unfold spinStr
        apply List.map_congr_left
        intro j hj
        have := List.mem_range.1 hj
        rw [interleave_cons, ofBitStr_cons, ofBitStr_cons, mul_comm, Nat.testBit_two_pow_mul_add _ (by rw [← ofBitStr_cons]; exact lt2), if_pos (by rw [List.length_cons, hlen]; omega),
          mul_comm, Nat.testBit_two_pow_mul_add _ lt, if_pos (by rw [hlen]; omega)]
      have top0 : (ofBitStr (interleave (x :: a) (y :: b))).testBit (2 * a.length + 0) = x := by
        rw [interleave_cons, ofBitStr_testBit]; simp [hlen]
      have top1 : (ofBitStr (interleave (x :: a) (y :: b))).testBit (2 * a.length + 1) = y := by
        rw [interleave_cons, ofBitStr_testBit]; simp [hlen]
      rw [List.length_cons, spinStr_succ, spinStr_succ, low 0 (by omega), low 1 (by omega), h1, h2, top0, top1]
      exact ⟨rfl, rfl⟩

/-- a determinant is determined by its alpha and beta strings -/
theorem spinStr_ext {k d e : ℕ} (hd : d < 2 ^ (2 * k)) (he : e < 2 ^ (2 * k)) (h0 : spinStr 0 k d = spinStr 0 k e) (h1 : spinStr 1 k d = spinStr 1 k e) : d = e := by
  apply Nat.eq_of_testBit_eq
  intro p
  by_cases hp : p < 2 * k
  · have key : ∀ σ, spinStr σ k d = spinStr σ k e → ∀ q, q < k → d.testBit (2 * q + σ) = e.testBit (2 * q + σ) := by
      intro σ h q hq
      have := congrArg (fun s => s.getD (k - 1 - q) false) h
      rw [spinStr_getD (by omega), spinStr_getD (by omega)] at this
      rw [show k - 1 - (k - 1 - q) = q by omega] at this
      exact this
    rcases Nat.mod_two_eq_zero_or_one p with hm | hm
    · have := key 0 h0 (p / 2) (by omega)
      rwa [show 2 * (p / 2) + 0 = p by omega] at this
    · have := key 1 h1 (p / 2) (by omega)
      rwa [show 2 * (p / 2) + 1 = p by omega] at this
  · have h2 : 2 ^ (2 * k) ≤ 2 ^ p := Nat.pow_le_pow_right (by norm_num) (by omega)
    rw [Nat.testBit_lt_two_pow (by omega), Nat.testBit_lt_two_pow (by omega)]

theorem interleave_inv {k d : ℕ} (hd : d < 2 ^ (2 * k)) : ofBitStr (interleave (spinStr 0 k d) (spinStr 1 k d)) = d := by
  have hl : (spinStr 0 k d).length = (spinStr 1 k d).length := by rw [spinStr_length, spinStr_length]
  obtain ⟨h1, h2⟩ := interleave_spin _ _ hl
  rw [spinStr_length] at h1 h2
  refine spinStr_ext ?_ hd h1 h2
  have := ofBitStr_lt (interleave (spinStr 0 k d) (spinStr 1 k d))
  rwa [interleave_length, spinStr_length] at this

/-! ### the loop over permutations -/

open Classical in
/-- the permutations above `s` -/
noncomputable def above (s : List Bool) : Finset (List Bool) := s.permutations.toFinset.filter fun m => s < m

theorem mem_above {s m : List Bool} : m ∈ above s ↔ m.Perm s ∧ s < m := by
  unfold above; rw [Finset.mem_filter, List.mem_toFinset, List.mem_permutations]

theorem permsFrom_ok (N : NextPerm) : ∀ (c : ℕ) (s : List Bool), (above s).card < c → ∀ fuel, c ≤ fuel →
    ∃ L, permsFrom N fuel s = .ok L ∧ L.Pairwise (· < ·) ∧ ∀ m, m ∈ L ↔ m.Perm s ∧ s ≤ m := by
  intro c
  induction c with
  | zero => intro s h; omega
  | succ c ih =>
    intro s hc fuel hf
    obtain ⟨fuel, rfl⟩ : ∃ f, fuel = f + 1 := ⟨fuel - 1, by omega⟩
    unfold permsFrom
    cases hn : N.next s with
    | none =>
      refine ⟨[s], rfl, by simp, ?_⟩
      intro m
      rw [List.mem_singleton]
      constructor
      · rintro rfl; exact ⟨List.Perm.refl _, le_refl _⟩
      · rintro ⟨h1, h2⟩; exact le_antisymm (N.none_spec s hn m h1) h2
    | some s' =>
      obtain ⟨p1, p2, p3⟩ := N.some_spec s s' hn
      have hsub : (above s').card < (above s).card := by
        apply Finset.card_lt_card
        refine ⟨?_, ?_⟩
        · intro m hm
          obtain ⟨h1, h2⟩ := mem_above.1 hm
          exact mem_above.2 ⟨h1.trans p1, p2.trans h2⟩
        · intro h
          have := h (mem_above.2 ⟨p1, p2⟩)
          exact lt_irrefl _ (mem_above.1 this).2
      obtain ⟨L, e, hs, hm⟩ := ih s' (by omega) fuel (by omega)
      refine ⟨s :: L, by simp only [e]; rfl, ?_, ?_⟩
      · rw [List.pairwise_cons]
        refine ⟨?_, hs⟩
        intro m hmL
        exact lt_of_lt_of_le p2 ((hm m).1 hmL).2
      · intro m
        rw [List.mem_cons, hm]
        constructor
        · rintro (rfl | ⟨h1, h2⟩)
          · exact ⟨List.Perm.refl _, le_refl _⟩
          · exact ⟨h1.trans p1, (lt_of_lt_of_le p2 h2).le⟩
        · rintro ⟨h1, h2⟩
          rcases eq_or_lt_of_le h2 with rfl | h2
          · exact .inl rfl
          · exact .inr ⟨h1.trans p1.symm, p3 m h1 h2⟩

/-- the `next_permutation` specification can be met -/
theorem nextPerm_exists : Nonempty NextPerm := by
  classical
  refine ⟨⟨fun s => if h : (above s).Nonempty then some ((above s).min' h) else none, ?_, ?_⟩⟩
  · intro s s' e
    by_cases h : (above s).Nonempty
    · rw [dif_pos h] at e; cases e
      obtain ⟨h1, h2⟩ := mem_above.1 ((above s).min'_mem h)
      exact ⟨h1, h2, fun m hm hlt => (above s).min'_le m (mem_above.2 ⟨hm, hlt⟩)⟩
    · rw [dif_neg h] at e; cases e
  · intro s e m hm
    by_cases h : (above s).Nonempty
    · rw [dif_pos h] at e; cases e
    · by_contra hc
      exact h ⟨m, mem_above.2 ⟨hm, not_le.1 hc⟩⟩

end SQOpPool
end QF
