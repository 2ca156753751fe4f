import Verif.Model.SQPool
import Verif.Props.Fermion

/-!
C50: `set_orb_spaces`.
-/
namespace QF
namespace SQOpPool

/-- the value of the `int` multiplier at position `i` -/
def mulAt (i : ℕ) : ℤ := if i < 31 then 2 ^ i else if i = 31 then -2 ^ 31 else 0

theorem mulAt_succ (i : ℕ) : (2 * mulAt i).bmod (2 ^ 32) = mulAt (i + 1) := by
  unfold mulAt
  rcases Nat.lt_or_ge i 30 with h | h
  · rw [if_pos (by omega), if_pos (by omega)]
    have hp : (2 : ℤ) ^ i ≤ 2 ^ 29 := pow_le_pow_right₀ (by norm_num) (by omega)
    have hp0 : (0 : ℤ) < 2 ^ i := by positivity
    rw [Int.bmod_eq_of_le (by norm_num; omega) (by norm_num at hp ⊢; omega), pow_succ]; ring
  · rcases Nat.lt_or_ge i 32 with h' | h'
    · interval_cases i <;> rfl
    · rw [if_neg (by omega), if_neg (by omega), if_neg (by omega), if_neg (by omega)]; rfl

theorem refStep_fold (ref : List ℕ) : ∀ (r i : ℕ), r < 2 ^ 64 →
    ref.foldl refStep (r, mulAt i) = ((((r : ℤ) + ∑ j ∈ Finset.range ref.length, (ref.getD j 0 : ℤ) * mulAt (i + j)) % 2 ^ 64).toNat, mulAt (i + ref.length)) := by
  induction ref with
  | nil =>
    intro r i hr
    have : ((r : ℤ) % 2 ^ 64).toNat = r := by
      rw [Int.emod_eq_of_lt (by omega) (by exact_mod_cast hr)]; simp
    rw [List.foldl_nil, List.length_nil, Finset.sum_range_zero, add_zero, this, add_zero]
  | cons x ref ih =>
    intro r i hr
    rw [List.foldl_cons]
    rw [show refStep (r, mulAt i) x = ((((r : ℤ) + x * mulAt i) % 2 ^ 64).toNat, mulAt (i + 1)) from Prod.ext rfl (mulAt_succ i), ih _ _ (by
      have h1 := Int.emod_lt_of_pos ((r : ℤ) + x * mulAt i) (show (0 : ℤ) < 2 ^ 64 by norm_num)
      have h2 := Int.emod_nonneg ((r : ℤ) + x * mulAt i) (show (2 : ℤ) ^ 64 ≠ 0 by norm_num)
      omega)]
    have h2 := Int.emod_nonneg ((r : ℤ) + x * mulAt i) (show (2 : ℤ) ^ 64 ≠ 0 by norm_num)
    rw [Int.toNat_of_nonneg h2, Int.emod_add_emod, List.length_cons, Finset.sum_range_succ', add_assoc]
    simp only [List.getD_cons_succ, List.getD_cons_zero, add_zero]
    refine Prod.ext ?_ ?_
    · simp only
      congr 3
      rw [add_comm]
      congr 1
      apply Finset.sum_congr rfl
      intro j _
      rw [show i + 1 + j = i + (j + 1) by omega]
    · simp only; congr 1; omega

/-- the reference integer for every reference: multipliers `2^i` below 31, `-2^31` at 31, 0 above, modulo 2^64 -/
theorem refInt_formula (ref : List ℕ) :
    (ref.foldl refStep (0, 1)).1 = ((∑ j ∈ Finset.range ref.length, (ref.getD j 0 : ℤ) * mulAt j) % 2 ^ 64).toNat := by
  have := refStep_fold ref 0 0 (by norm_num)
  rw [show mulAt 0 = 1 by rfl] at this
  rw [this]; simp

theorem sum_bits_lt (f : ℕ → ℕ) (hf : ∀ j, f j ≤ 1) (n : ℕ) : ∑ j ∈ Finset.range n, f j * 2 ^ j < 2 ^ n := by
  induction n with
  | zero => simp
  | succ n ih =>
    rw [Finset.sum_range_succ, pow_succ]
    have : f n * 2 ^ n ≤ 1 * 2 ^ n := Nat.mul_le_mul_right _ (hf n)
    omega

theorem sum_bits_testBit (f : ℕ → ℕ) (hf : ∀ j, f j ≤ 1) (n i : ℕ) : (∑ j ∈ Finset.range n, f j * 2 ^ j).testBit i = (decide (i < n) && decide (f i = 1)) := by
  induction n with
  | zero => simp
  | succ n ih =>
    rw [Finset.sum_range_succ]
    have hlt := sum_bits_lt f hf n
    rcases Nat.lt_trichotomy i n with h | h | h
    · have hfn := hf n
      rw [mul_comm, Nat.add_comm, Nat.testBit_two_pow_mul_add _ hlt, if_pos h, ih]
      simp [h, Nat.lt_succ_of_lt h]
    · subst h
      rw [mul_comm, Nat.add_comm, Nat.testBit_two_pow_mul_add _ hlt, if_neg (by omega), Nat.sub_self]
      have := hf i
      interval_cases h : f i <;> simp
    · rw [Nat.testBit_lt_two_pow]
      · simp; omega
      · have h1 : f n * 2 ^ n ≤ 1 * 2 ^ n := Nat.mul_le_mul_right _ (hf n)
        have h2 : 2 ^ (n + 1) ≤ 2 ^ i := Nat.pow_le_pow_right (by norm_num) h
        rw [pow_succ] at h2; omega

/-- `set_orb_spaces` fails exactly for an odd number of spin orbitals -/
theorem C50_odd_raises (P : SQOpPool) (ref irr : List ℕ) : (∃ P', P.setOrbSpaces ref irr = .ok P') ↔ Even ref.length := by
  unfold setOrbSpaces
  rw [Nat.even_iff]
  by_cases h : ref.length % 2 = 0
  · rw [if_neg (by omega)]; simp [h]
  · rw [if_pos (by omega)]; simp [h]

theorem countStep_fold (ref : List ℕ) (h01 : ∀ x ∈ ref, x = 0 ∨ x = 1) : ∀ (α : Bool) (oa ob va vb : ℕ),
    ref.foldl countStep (α, oa, ob, va, vb) = (α ^^ decide (ref.length % 2 = 1),
      oa + (List.range ref.length).countP (fun i => decide (i % 2 = α.toNat.succ % 2) && decide (ref.getD i 0 = 1)),
      ob + (List.range ref.length).countP (fun i => decide (i % 2 = α.toNat) && decide (ref.getD i 0 = 1)),
      va + (List.range ref.length).countP (fun i => decide (i % 2 = α.toNat.succ % 2) && decide (ref.getD i 0 = 0)),
      vb + (List.range ref.length).countP (fun i => decide (i % 2 = α.toNat) && decide (ref.getD i 0 = 0))) := by
  induction ref with
  | nil => intro α oa ob va vb; simp
  | cons x ref ih =>
    intro α oa ob va vb
    have hx := h01 x (by simp)
    have hpar : ∀ i : ℕ, ∀ a, a < 2 → ((i + 1) % 2 = a ↔ i % 2 = 1 - a) := by intro i a ha; omega
    have hcp : ∀ (a v : ℕ), a < 2 → (List.range (ref.length + 1)).countP (fun i => decide (i % 2 = a) && decide ((x :: ref).getD i 0 = v)) =
        (if a = 0 ∧ x = v then 1 else 0) + (List.range ref.length).countP (fun i => decide (i % 2 = 1 - a) && decide (ref.getD i 0 = v)) := by
      intro a v ha
      rw [List.range_succ_eq_map, List.countP_cons, List.countP_map, Nat.add_comm]
      congr 1
      · simp only [Nat.zero_mod, List.getD_cons_zero, Bool.and_eq_true, decide_eq_true_eq, eq_comm (a := 0)]
      · apply List.countP_congr
        intro i _
        simp only [Function.comp, Bool.and_eq_true, decide_eq_true_eq, List.getD_cons_succ, Nat.succ_eq_add_one, hpar i a ha]
    rw [List.foldl_cons, List.length_cons]
    cases α with
    | true =>
      rw [show countStep (true, oa, ob, va, vb) x = (false, oa + x, ob, va + (x ^^^ 1), vb) from rfl, ih (fun y hy => h01 y (by simp [hy]))]
      simp only [Bool.toNat_true, Bool.toNat_false, Nat.succ_eq_add_one]
      rw [hcp _ _ (by omega), hcp _ _ (by omega), hcp _ _ (by omega), hcp _ _ (by omega)]
      refine Prod.ext ?_ ?_
      · rcases Nat.mod_two_eq_zero_or_one ref.length with h | h <;> simp [h, Nat.add_mod]
      · rcases hx with rfl | rfl <;> simp <;> omega
    | false =>
      rw [show countStep (false, oa, ob, va, vb) x = (true, oa, ob + x, va, vb + (x ^^^ 1)) from rfl, ih (fun y hy => h01 y (by simp [hy]))]
      simp only [Bool.toNat_true, Bool.toNat_false, Nat.succ_eq_add_one]
      rw [hcp _ _ (by omega), hcp _ _ (by omega), hcp _ _ (by omega), hcp _ _ (by omega)]
      refine Prod.ext ?_ ?_
      · rcases Nat.mod_two_eq_zero_or_one ref.length with h | h <;> simp [h, Nat.add_mod]
      · rcases hx with rfl | rfl <;> simp <;> omega

/-- number of orbitals of the given spin (0 = alpha = even, 1 = beta = odd) with the given occupation -/
def spinCount (ref : List ℕ) (spin occ : ℕ) : ℕ := (List.range ref.length).countP fun i => decide (i % 2 = spin) && decide (ref.getD i 0 = occ)

/-- C50: for a reference of zeros and ones on an even number of spin orbitals the occupied/virtual alpha/beta numbers are
those of the reference, and for each spin occupied and virtual together are half the orbitals. -/
theorem C50_orbital_spaces (P P' : SQOpPool) (ref irr : List ℕ) (h01 : ∀ x ∈ ref, x = 0 ∨ x = 1) (h : P.setOrbSpaces ref irr = .ok P') :
    P'.nSpinorb = ref.length ∧ P'.nOccAlpha = spinCount ref 0 1 ∧ P'.nOccBeta = spinCount ref 1 1 ∧
    P'.nVirAlpha = spinCount ref 0 0 ∧ P'.nVirBeta = spinCount ref 1 0 ∧
    P'.nOccAlpha + P'.nVirAlpha = ref.length / 2 ∧ P'.nOccBeta + P'.nVirBeta = ref.length / 2 ∧ P'.terms = P.terms ∧
    P'.orbIrreps = if irr = [] then List.replicate (ref.length / 2) 0 else irr := by
  have hev := (C50_odd_raises P ref irr).1 ⟨P', h⟩
  have hev2 := Nat.even_iff.1 hev
  unfold setOrbSpaces at h
  rw [if_neg (by omega)] at h
  cases h
  have hc := countStep_fold ref h01 true 0 0 0 0
  simp only [Bool.toNat_true, Nat.succ_eq_add_one, Nat.zero_add, show (1 + 1) % 2 = 0 from rfl] at hc
  have half : ∀ a, a < 2 → ∀ k, (List.range (2 * k)).countP (fun i => decide (i % 2 = a)) = k := by
    intro a ha k
    induction k with
    | zero => rfl
    | succ k ih =>
      rw [show 2 * (k + 1) = (2 * k + 1) + 1 by ring, List.range_succ, List.range_succ, List.countP_append, List.countP_append, ih]
      interval_cases a <;> simp [Nat.add_mod]
  have sum : ∀ a, a < 2 → spinCount ref a 1 + spinCount ref a 0 = ref.length / 2 := by
    intro a ha
    have h2 := half a ha (ref.length / 2)
    rw [show 2 * (ref.length / 2) = ref.length by omega] at h2
    rw [← h2]
    unfold spinCount
    have : ∀ l : List ℕ, (∀ i ∈ l, i < ref.length) → l.countP (fun i => decide (i % 2 = a) && decide (ref.getD i 0 = 1)) +
        l.countP (fun i => decide (i % 2 = a) && decide (ref.getD i 0 = 0)) = l.countP fun i => decide (i % 2 = a) := by
      intro l hl
      induction l with
      | nil => rfl
      | cons i l ih =>
        have ih := ih (fun j hj => hl j (by simp [hj]))
        have hi : ref.getD i 0 = 0 ∨ ref.getD i 0 = 1 := by
          have := hl i (by simp)
          rw [List.getD_eq_getElem?_getD, List.getElem?_eq_getElem this, Option.getD_some]
          exact h01 _ (List.getElem_mem this)
        rw [List.countP_cons, List.countP_cons, List.countP_cons]
        by_cases h : i % 2 = a <;> rcases hi with hi | hi <;> simp only [h, hi, decide_true, decide_false, Bool.and_true, Bool.and_false, Bool.true_and, Bool.false_and, if_true, Nat.zero_ne_one, Nat.one_ne_zero, Bool.false_eq_true, if_false] <;> omega
    exact this _ (fun i hi => List.mem_range.1 hi)
  have e1 : (ref.foldl countStep (true, 0, 0, 0, 0)).2.1 = spinCount ref 0 1 := by rw [hc]; rfl
  have e2 : (ref.foldl countStep (true, 0, 0, 0, 0)).2.2.1 = spinCount ref 1 1 := by rw [hc]; rfl
  have e3 : (ref.foldl countStep (true, 0, 0, 0, 0)).2.2.2.1 = spinCount ref 0 0 := by rw [hc]; rfl
  have e4 : (ref.foldl countStep (true, 0, 0, 0, 0)).2.2.2.2 = spinCount ref 1 0 := by rw [hc]; rfl
  exact ⟨rfl, e1, e2, e3, e4, by simp only [e1, e3]; exact sum 0 (by omega), by simp only [e2, e4]; exact sum 1 (by omega), rfl, rfl⟩

/-- C50: if no orbital from 31 on is occupied, the reference integer is `Σ ref[i] 2^i`: its bit `i` is set iff orbital `i` is
occupied. -/
theorem C50_reference_integer_partial (P P' : SQOpPool) (ref irr : List ℕ) (h01 : ∀ x ∈ ref, x = 0 ∨ x = 1) (h : P.setOrbSpaces ref irr = .ok P')
    (h31 : ∀ i, 31 ≤ i → ref.getD i 0 = 0) :
    P'.refInt = ∑ i ∈ Finset.range ref.length, ref.getD i 0 * 2 ^ i ∧ ∀ i, P'.refInt.testBit i = decide (ref.getD i 0 = 1) := by
  have hev := (C50_odd_raises P ref irr).1 ⟨P', h⟩
  have hev2 := Nat.even_iff.1 hev
  unfold setOrbSpaces at h
  rw [if_neg (by omega)] at h
  cases h
  have hf : ∀ j, ref.getD j 0 ≤ 1 := by
    intro j
    by_cases hj : j < ref.length
    · rw [List.getD_eq_getElem?_getD, List.getElem?_eq_getElem hj, Option.getD_some]
      rcases h01 _ (List.getElem_mem hj) with h | h <;> omega
    · rw [List.getD_eq_default _ _ (by omega)]; omega
  have hcut : ∑ i ∈ Finset.range ref.length, ref.getD i 0 * 2 ^ i < 2 ^ 64 := by
    have : ∑ i ∈ Finset.range ref.length, ref.getD i 0 * 2 ^ i ≤ ∑ i ∈ Finset.range 31, ref.getD i 0 * 2 ^ i := by
      apply Finset.sum_le_sum_of_ne_zero
      intro i hi hne
      by_contra hc
      exact hne (by rw [h31 i (by simpa using hc), Nat.zero_mul])
    have := sum_bits_lt (fun j => ref.getD j 0) hf 31
    omega
  have e : (ref.foldl refStep (0, 1)).1 = ∑ i ∈ Finset.range ref.length, ref.getD i 0 * 2 ^ i := by
    rw [refInt_formula]
    have : ∑ j ∈ Finset.range ref.length, (ref.getD j 0 : ℤ) * mulAt j = ((∑ i ∈ Finset.range ref.length, ref.getD i 0 * 2 ^ i : ℕ) : ℤ) := by
      push_cast
      apply Finset.sum_congr rfl
      intro j _
      by_cases hj : j < 31
      · rw [mulAt, if_pos hj]
      · rw [h31 j (by omega)]; simp
    rw [this, Int.emod_eq_of_lt (by omega) (by exact_mod_cast hcut), Int.toNat_natCast]
  refine ⟨e, ?_⟩
  intro i
  simp only [e]
  rw [sum_bits_testBit _ hf]
  by_cases hi : i < ref.length
  · simp [hi]
  · have : ref.getD i 0 = 0 := by rw [List.getD_eq_default _ _ (by omega)]
    simp [hi]

/-- C50 (finding): the full statement is false.  The multiplier is a 32-bit `int`: a reference on 32 spin orbitals with only
orbital 31 occupied gives `2^64 - 2^31`, and occupation of any orbital from 32 on is lost. -/
theorem C50_refuted_int_overflow (P : SQOpPool) :
    (∃ P', P.setOrbSpaces (List.replicate 31 0 ++ [1]) = .ok P' ∧ P'.refInt = 2 ^ 64 - 2 ^ 31) ∧
    (∃ P', P.setOrbSpaces (List.replicate 33 0 ++ [1]) = .ok P' ∧ P'.refInt = 0) := by
  have key : ∀ ref : List ℕ, Even ref.length → ∃ P', P.setOrbSpaces ref = .ok P' ∧ P'.refInt =
      ((∑ j ∈ Finset.range ref.length, (ref.getD j 0 : ℤ) * mulAt j) % 2 ^ 64).toNat := by
    intro ref h
    obtain ⟨P', e⟩ := (C50_odd_raises P ref []).2 h
    refine ⟨P', e, ?_⟩
    have hev2 := Nat.even_iff.1 h
    unfold setOrbSpaces at e
    rw [if_neg (by omega)] at e
    cases e
    exact refInt_formula ref
  have last : ∀ n, ∑ j ∈ Finset.range (List.replicate n 0 ++ [1]).length, ((List.replicate n 0 ++ [1]).getD j 0 : ℤ) * mulAt j = mulAt n := by
    intro n
    rw [List.length_append, List.length_replicate, List.length_singleton, Finset.sum_range_succ, Finset.sum_eq_zero]
    · simp
    · intro j hj
      have hj := Finset.mem_range.1 hj
      rw [List.getD_append _ _ _ _ (by simpa using hj)]
      simp
  constructor
  · obtain ⟨P', e, h⟩ := key (List.replicate 31 0 ++ [1]) (by simp; decide)
    refine ⟨P', e, ?_⟩
    rw [h, last]; rfl
  · obtain ⟨P', e, h⟩ := key (List.replicate 33 0 ++ [1]) (by simp; decide)
    refine ⟨P', e, ?_⟩
    rw [h, last]; rfl

/-- a concrete case: two alpha and one beta electron on six spin orbitals -/
theorem C50_example (P : SQOpPool) : ∃ P', P.setOrbSpaces [1, 1, 1, 0, 0, 0] = .ok P' ∧ (∀ x ∈ [1, 1, 1, 0, 0, 0], x = 0 ∨ x = 1) ∧
    (∀ i, 31 ≤ i → [1, 1, 1, 0, 0, 0].getD i 0 = 0) ∧ P'.refInt = 7 ∧ P'.nOccAlpha = 2 ∧ P'.nOccBeta = 1 ∧ P'.nVirAlpha = 1 ∧ P'.nVirBeta = 2 :=
  ⟨_, rfl, by decide, fun i hi => List.getD_eq_default _ _ (by simp; omega), rfl, rfl, rfl, rfl, rfl⟩

end SQOpPool
end QF
