import Verif.Spec.Frozen
import Verif.Lemmas.Fermion

/-!
The frozen-core identity: matrix elements of a two-body operator between states with a fully occupied core.
-/
namespace QF

theorem Op.mulNeg (A B : Op) : A * -B = -(A * B) := by
  apply Op.ext'; intro ψ I; simp
theorem Op.negMul (A B : Op) : -A * B = -(A * B) := by
  apply Op.ext'; intro ψ I; simp

/-- the amplitudes of the determinants with a full core -/
def coreAmps (c : ℕ) : Op where
  toFun φ J := φ (coreDet c J)
  map_add' _ _ := rfl
  map_smul' _ _ := rfl

theorem coreDet_testBit (c J p : ℕ) : (coreDet c J).testBit p = if p < c then true else J.testBit (p - c) := by
  unfold coreDet
  rw [Nat.testBit_two_pow_mul_add J (by have := Nat.two_pow_pos c; omega) p]
  split_ifs with h
  · simp [Nat.testBit_two_pow_sub_one, h]
  · rfl

theorem coreDet_mod_div (c J : ℕ) : coreDet c J % 2 ^ c = 2 ^ c - 1 ∧ coreDet c J / 2 ^ c = J := by
  have := Nat.two_pow_pos c
  unfold coreDet
  constructor
  · rw [Nat.mul_add_mod]; exact Nat.mod_eq_of_lt (by omega)
  · rw [Nat.mul_add_div (by omega), Nat.div_eq_of_lt (by omega), add_zero]

theorem coreDet_of_mod {c I : ℕ} (h : I % 2 ^ c = 2 ^ c - 1) : I = coreDet c (I / 2 ^ c) := by
  unfold coreDet
  rw [← h]; exact (Nat.div_add_mod I (2 ^ c)).symm

theorem mod_iff {c I : ℕ} : I % 2 ^ c = 2 ^ c - 1 ↔ ∀ p < c, I.testBit p = true := by
  constructor
  · intro h p hp
    rw [coreDet_of_mod h, coreDet_testBit, if_pos hp]
  · intro h
    refine Nat.eq_of_testBit_eq fun p => ?_
    rw [Nat.testBit_mod_two_pow, Nat.testBit_two_pow_sub_one]
    by_cases hp : p < c
    · simp [hp, h p hp]
    · simp [hp]

theorem withCore_apply (c : ℕ) (ψ : St) (I : ℕ) : withCore c ψ I = if I % 2 ^ c = 2 ^ c - 1 then ψ (I / 2 ^ c) else 0 := rfl
theorem coreAmps_apply (c : ℕ) (φ : St) (J : ℕ) : coreAmps c φ J = φ (coreDet c J) := rfl

theorem coreAmps_withCore (c : ℕ) : coreAmps c * withCore c = 1 := by
  apply Op.ext'; intro ψ J
  rw [Module.End.mul_apply, coreAmps_apply, withCore_apply, if_pos (coreDet_mod_div c J).1, (coreDet_mod_div c J).2, Module.End.one_apply]

theorem core_full {c p : ℕ} (hp : p < c) : aDag p * withCore c = 0 := by
  apply Op.ext'; intro ψ I
  rw [Module.End.mul_apply, ladder_apply, withCore_apply]
  by_cases h : I.testBit p = true
  · rw [if_pos h, if_neg, mul_zero]; · rfl
    intro h'
    have := mod_iff.1 h' p hp
    rw [testBit_flipBit, if_pos rfl, h] at this
    cases this
  · rw [if_neg h]; rfl

theorem core_bra {c p : ℕ} (hp : p < c) : coreAmps c * aAnn p = 0 := by
  apply Op.ext'; intro ψ J
  rw [Module.End.mul_apply, coreAmps_apply, ladder_apply, if_neg]
  · rfl
  · rw [coreDet_testBit, if_pos hp]; decide

theorem nBelow_core (c J p : ℕ) : nBelow (coreDet c J) (p + c) = c + nBelow J p := by
  unfold nBelow
  rw [Nat.add_comm p c, List.range_add, List.countP_append, List.countP_map]
  congr 1
  · rw [List.countP_eq_length.2, List.length_range]
    intro q hq
    rw [coreDet_testBit, if_pos (List.mem_range.1 hq)]
  · refine List.countP_congr fun q _ => ?_
    simp only [Function.comp, coreDet_testBit]
    rw [if_neg (by omega), Nat.add_sub_cancel_left]

theorem flip_core (c J p : ℕ) : flipBit (coreDet c J) (p + c) = coreDet c (flipBit J p) := by
  refine Nat.eq_of_testBit_eq fun q => ?_
  rw [testBit_flipBit, coreDet_testBit, coreDet_testBit, coreDet_testBit, testBit_flipBit]
  by_cases h : q = p + c
  · subst h; simp
  · rw [if_neg h]
    split_ifs with h1 h2
    · rfl
    · omega
    · rfl

/-- a ladder operator above the core acts as if there were no core (of even size) -/
theorem core_shift {c : ℕ} (hc : Even c) (b : Bool) (p : ℕ) : ladder b (p + c) * withCore c = withCore c * ladder b p := by
  apply Op.ext'; intro ψ I
  rw [Module.End.mul_apply, Module.End.mul_apply, ladder_apply, withCore_apply, withCore_apply]
  by_cases h : I % 2 ^ c = 2 ^ c - 1
  · obtain ⟨J, rfl⟩ : ∃ J, I = coreDet c J := ⟨_, coreDet_of_mod h⟩
    rw [flip_core, if_pos (coreDet_mod_div c _).1, if_pos h, (coreDet_mod_div c _).2, (coreDet_mod_div c _).2, ladder_apply, coreDet_testBit,
      if_neg (c := p + c < c) (by omega), Nat.add_sub_cancel]
    unfold fsign
    rw [nBelow_core, pow_add, hc.neg_one_pow, one_mul]
  · rw [if_neg h, if_neg (c := flipBit I (p + c) % 2 ^ c = _), mul_zero, ite_self]
    intro h'
    refine h (mod_iff.2 fun q hq => ?_)
    have := mod_iff.1 h' q hq
    rwa [testBit_flipBit, if_neg (by omega)] at this

theorem anticomm (p q : ℕ) : aDag p * aAnn q = (if p = q then (1 : Op) else 0) - aAnn q * aDag p := by
  by_cases h : p = q
  · subst h
    rw [if_pos rfl, eq_sub_iff_add_eq]
    exact ladder_anticomm_self true p
  · rw [if_neg h, ladder_anticomm_ne true false h, zero_sub]

/-- one-body operator between states with a full core -/
theorem core_one {c : ℕ} (hc : Even c) (p q : ℕ) : coreAmps c * (aDag p * aAnn q) * withCore c =
    if p < c then (if p = q then 1 else 0) else if q < c then 0 else aDag (p - c) * aAnn (q - c) := by
  by_cases hp : p < c
  · rw [if_pos hp, anticomm, mul_sub, sub_mul, mul_assoc, mul_assoc, mul_assoc, core_full hp, mul_zero, mul_zero, sub_zero]
    split_ifs
    · rw [one_mul, coreAmps_withCore]
    · rw [zero_mul, mul_zero]
  · rw [if_neg hp]
    by_cases hq : q < c
    · rw [if_pos hq, anticomm, if_neg (by omega), zero_sub, Op.mulNeg, Op.negMul, ← mul_assoc, core_bra hq, zero_mul, zero_mul, neg_zero]
    · rw [if_neg hq]
      obtain ⟨p, rfl⟩ : ∃ p', p = p' + c := ⟨p - c, by omega⟩
      obtain ⟨q, rfl⟩ : ∃ q', q = q' + c := ⟨q - c, by omega⟩
      rw [Nat.add_sub_cancel, Nat.add_sub_cancel, mul_assoc, mul_assoc, core_shift hc, ← mul_assoc (aDag (p + c)), core_shift hc, mul_assoc, ← mul_assoc, coreAmps_withCore, one_mul]

theorem swap_cre (p q r s : ℕ) : aDag p * aDag q * aAnn r * aAnn s = -(aDag q * aDag p * aAnn r * aAnn s) := by
  rw [ladder_same_anticomm true p q, Op.negMul, Op.negMul]

theorem swap_ann (p q r s : ℕ) : aDag p * aDag q * aAnn r * aAnn s = -(aDag p * aDag q * aAnn s * aAnn r) := by
  rw [mul_assoc (aDag p * aDag q), ladder_same_anticomm false r s, Op.mulNeg, ← mul_assoc]

theorem two_reorder (p q r s : ℕ) : aDag p * aDag q * aAnn r * aAnn s =
    (if p = s then aDag q * aAnn r else 0) - (if p = r then aDag q * aAnn s else 0) - aDag q * aAnn r * aAnn s * aDag p := by
  rw [swap_cre, mul_assoc (aDag q), anticomm p r]
  have e : aAnn r * aDag p * aAnn s = aAnn r * ((if p = s then (1 : Op) else 0) - aAnn s * aDag p) := by rw [mul_assoc, anticomm p s]
  rw [mul_sub, sub_mul, mul_assoc (aDag q) (aAnn r * aDag p), e]
  rw [mul_sub (aAnn r), mul_sub (aDag q)]
  have e2 : aDag q * (aAnn r * (aAnn s * aDag p)) = aDag q * aAnn r * aAnn s * aDag p := by simp only [mul_assoc]
  have e3 : aDag q * (if p = r then (1 : Op) else 0) * aAnn s = if p = r then aDag q * aAnn s else 0 := by split_ifs <;> simp
  have e4 : aDag q * (aAnn r * if p = s then (1 : Op) else 0) = if p = s then aDag q * aAnn r else 0 := by split_ifs <;> simp
  rw [e2, e3, e4]
  abel

theorem core_two_left {c : ℕ} {p : ℕ} (hp : p < c) (q r s : ℕ) : coreAmps c * (aDag p * aDag q * aAnn r * aAnn s) * withCore c =
    (if p = s then coreAmps c * (aDag q * aAnn r) * withCore c else 0) - if p = r then coreAmps c * (aDag q * aAnn s) * withCore c else 0 := by
  rw [two_reorder, mul_sub, mul_sub, sub_mul, sub_mul]
  have : coreAmps c * (aDag q * aAnn r * aAnn s * aDag p) * withCore c = 0 := by
    rw [mul_assoc, mul_assoc (aDag q * aAnn r * aAnn s), core_full hp, mul_zero, mul_zero]
  rw [this, sub_zero]
  split_ifs <;> simp

/-- two-body operator between states with a full core, when both creation operators act above it -/
theorem core_two_above {c : ℕ} (hc : Even c) {p q : ℕ} (hp : c ≤ p) (hq : c ≤ q) (r s : ℕ) : coreAmps c * (aDag p * aDag q * aAnn r * aAnn s) * withCore c =
    if r < c ∨ s < c then 0 else aDag (p - c) * aDag (q - c) * aAnn (r - c) * aAnn (s - c) := by
  have h1 : ∀ r s, r < c → coreAmps c * (aDag p * aDag q * aAnn r * aAnn s) * withCore c = 0 := by
    intro r s hr
    have : aDag p * aDag q * aAnn r * aAnn s = aAnn r * (aDag p * aDag q * aAnn s) := by
      rw [mul_assoc (aDag p), anticomm q r, if_neg (by omega), zero_sub, Op.mulNeg, Op.negMul, ← mul_assoc, anticomm p r, if_neg (by omega), zero_sub,
        Op.negMul, Op.negMul, neg_neg]
      simp only [mul_assoc]
    rw [this, ← mul_assoc, core_bra hr, zero_mul, zero_mul]
  by_cases hr : r < c
  · rw [if_pos (.inl hr), h1 r s hr]
  · by_cases hs : s < c
    · rw [if_pos (.inr hs), swap_ann, Op.mulNeg, Op.negMul, h1 s r hs, neg_zero]
    · rw [if_neg (by omega)]
      obtain ⟨p, rfl⟩ : ∃ p', p = p' + c := ⟨p - c, by omega⟩
      obtain ⟨q, rfl⟩ : ∃ q', q = q' + c := ⟨q - c, by omega⟩
      obtain ⟨r, rfl⟩ : ∃ r', r = r' + c := ⟨r - c, by omega⟩
      obtain ⟨s, rfl⟩ : ∃ s', s = s' + c := ⟨s - c, by omega⟩
      simp only [Nat.add_sub_cancel]
      have e := core_shift hc
      calc coreAmps c * (aDag (p + c) * aDag (q + c) * aAnn (r + c) * aAnn (s + c)) * withCore c
          = coreAmps c * (aDag (p + c) * (aDag (q + c) * (aAnn (r + c) * (aAnn (s + c) * withCore c)))) := by simp only [mul_assoc]
        _ = coreAmps c * (aDag (p + c) * (aDag (q + c) * (aAnn (r + c) * withCore c * aAnn s))) := by rw [e]; simp only [mul_assoc]
        _ = coreAmps c * (aDag (p + c) * (aDag (q + c) * withCore c * aAnn r * aAnn s)) := by rw [e]; simp only [mul_assoc]
        _ = coreAmps c * (aDag (p + c) * withCore c * aDag q * aAnn r * aAnn s) := by rw [e]; simp only [mul_assoc]
        _ = coreAmps c * withCore c * (aDag p * aDag q * aAnn r * aAnn s) := by rw [e]; simp only [mul_assoc]
        _ = _ := by rw [coreAmps_withCore, one_mul]

/-- the one-body operator seen by a full core -/
noncomputable def coreOne (c p q : ℕ) : Op := coreAmps c * (aDag p * aAnn q) * withCore c

theorem core_sum_one {c : ℕ} (hc : Even c) (m : ℕ) (X : ℕ → ℕ → ℂ) :
    ∑ p ∈ Finset.range (c + m), ∑ q ∈ Finset.range (c + m), X p q • coreOne c p q =
      (∑ p ∈ Finset.range c, X p p) • (1 : Op) + ∑ p ∈ Finset.range m, ∑ q ∈ Finset.range m, X (c + p) (c + q) • (aDag p * aAnn q) := by
  rw [Finset.sum_range_add]
  congr 1
  · rw [Finset.sum_smul]
    refine Finset.sum_congr rfl fun p hp => ?_
    have hp := Finset.mem_range.1 hp
    rw [Finset.sum_eq_single_of_mem p (by simp; omega)]
    · rw [coreOne, core_one hc, if_pos hp, if_pos rfl]
    · intro q _ hq
      rw [coreOne, core_one hc, if_pos hp, if_neg (Ne.symm hq), smul_zero]
  · refine Finset.sum_congr rfl fun p hp => ?_
    rw [Finset.sum_range_add, Finset.sum_eq_zero, zero_add]
    · refine Finset.sum_congr rfl fun q hq => ?_
      rw [coreOne, core_one hc, if_neg (by omega), if_neg (by omega), Nat.add_sub_cancel_left, Nat.add_sub_cancel_left]
    · intro q hq
      have hq := Finset.mem_range.1 hq
      rw [coreOne, core_one hc, if_neg (by omega), if_pos hq, smul_zero]

theorem core_pick {c n : ℕ} {p : ℕ} (hp : p < c) (hn : c ≤ n) (q : ℕ) (Y : ℕ → ℕ → ℂ) :
    ∑ r ∈ Finset.range n, ∑ s ∈ Finset.range n, Y r s • (coreAmps c * (aDag p * aDag q * aAnn r * aAnn s) * withCore c) =
      ∑ r ∈ Finset.range n, (Y r p - Y p r) • coreOne c q r := by
  have e : ∀ r s, Y r s • (coreAmps c * (aDag p * aDag q * aAnn r * aAnn s) * withCore c) =
      (if p = s then Y r s • coreOne c q r else 0) - if p = r then Y r s • coreOne c q s else 0 := by
    intro r s
    rw [core_two_left hp, smul_sub]
    unfold coreOne
    split_ifs <;> simp
  have e' : ∀ r, (Y r p - Y p r) • coreOne c q r = Y r p • coreOne c q r - Y p r • coreOne c q r := fun r => by module
  simp only [e, e', Finset.sum_sub_distrib]
  congr 1
  · refine Finset.sum_congr rfl fun r _ => ?_
    rw [Finset.sum_ite_eq, if_pos (by simp; omega)]
  · rw [Finset.sum_comm]
    refine Finset.sum_congr rfl fun r _ => ?_
    rw [Finset.sum_ite_eq, if_pos (by simp; omega)]

theorem core_sum_two {c : ℕ} (hc : Even c) (m : ℕ) (v : ℕ → ℕ → ℕ → ℕ → ℂ) :
    ∑ p ∈ Finset.range (c + m), ∑ q ∈ Finset.range (c + m), ∑ r ∈ Finset.range (c + m), ∑ s ∈ Finset.range (c + m),
        v p q r s • (coreAmps c * (aDag p * aDag q * aAnn r * aAnn s) * withCore c) =
      (∑ p ∈ Finset.range c, ∑ q ∈ Finset.range c, (v p q q p - v p q p q)) • (1 : Op) +
      ∑ p ∈ Finset.range m, ∑ q ∈ Finset.range m, (∑ i ∈ Finset.range c, (v i (c + p) (c + q) i - v i (c + p) i (c + q) + v (c + p) i i (c + q) - v (c + p) i (c + q) i)) •
        (aDag p * aAnn q) +
      ∑ p ∈ Finset.range m, ∑ q ∈ Finset.range m, ∑ r ∈ Finset.range m, ∑ s ∈ Finset.range m,
        v (c + p) (c + q) (c + r) (c + s) • (aDag p * aDag q * aAnn r * aAnn s) := by
  rw [Finset.sum_range_add]
  have h1 : ∑ p ∈ Finset.range c, ∑ q ∈ Finset.range (c + m), ∑ r ∈ Finset.range (c + m), ∑ s ∈ Finset.range (c + m),
      v p q r s • (coreAmps c * (aDag p * aDag q * aAnn r * aAnn s) * withCore c) =
      (∑ p ∈ Finset.range c, ∑ q ∈ Finset.range c, (v p q q p - v p q p q)) • (1 : Op) +
      ∑ p ∈ Finset.range m, ∑ q ∈ Finset.range m, (∑ i ∈ Finset.range c, (v i (c + p) (c + q) i - v i (c + p) i (c + q))) • (aDag p * aAnn q) := by
    have : ∀ p ∈ Finset.range c, ∑ q ∈ Finset.range (c + m), ∑ r ∈ Finset.range (c + m), ∑ s ∈ Finset.range (c + m),
        v p q r s • (coreAmps c * (aDag p * aDag q * aAnn r * aAnn s) * withCore c) =
        ∑ q ∈ Finset.range (c + m), ∑ r ∈ Finset.range (c + m), (v p q r p - v p q p r) • coreOne c q r := fun p hp =>
      Finset.sum_congr rfl fun q _ => core_pick (Finset.mem_range.1 hp) (by omega) q (v p q)
    rw [Finset.sum_congr rfl this]
    rw [Finset.sum_congr rfl fun p _ => core_sum_one hc m fun q r => v p q r p - v p q p r]
    rw [Finset.sum_add_distrib, Finset.sum_smul]
    congr 1
    rw [Finset.sum_comm]
    refine Finset.sum_congr rfl fun p _ => ?_
    rw [Finset.sum_comm]
    refine Finset.sum_congr rfl fun q _ => ?_
    rw [Finset.sum_smul]
  have h2 : ∑ p ∈ Finset.range m, ∑ q ∈ Finset.range (c + m), ∑ r ∈ Finset.range (c + m), ∑ s ∈ Finset.range (c + m),
      v (c + p) q r s • (coreAmps c * (aDag (c + p) * aDag q * aAnn r * aAnn s) * withCore c) =
      ∑ p ∈ Finset.range m, ∑ q ∈ Finset.range m, (∑ i ∈ Finset.range c, (v (c + p) i i (c + q) - v (c + p) i (c + q) i)) • (aDag p * aAnn q) +
      ∑ p ∈ Finset.range m, ∑ q ∈ Finset.range m, ∑ r ∈ Finset.range m, ∑ s ∈ Finset.range m,
        v (c + p) (c + q) (c + r) (c + s) • (aDag p * aDag q * aAnn r * aAnn s) := by
    rw [← Finset.sum_add_distrib]
    refine Finset.sum_congr rfl fun p _ => ?_
    rw [Finset.sum_range_add]
    congr 1
    · have : ∀ q ∈ Finset.range c, ∑ r ∈ Finset.range (c + m), ∑ s ∈ Finset.range (c + m),
          v (c + p) q r s • (coreAmps c * (aDag (c + p) * aDag q * aAnn r * aAnn s) * withCore c) =
          ∑ r ∈ Finset.range m, (v (c + p) q q (c + r) - v (c + p) q (c + r) q) • (aDag p * aAnn r) := by
        intro q hq
        have e := core_pick (Finset.mem_range.1 hq) (n := c + m) (by omega) (c + p) fun r s => -v (c + p) q r s
        have e' : ∀ r s, v (c + p) q r s • (coreAmps c * (aDag (c + p) * aDag q * aAnn r * aAnn s) * withCore c) =
            -v (c + p) q r s • (coreAmps c * (aDag q * aDag (c + p) * aAnn r * aAnn s) * withCore c) := by
          intro r s
          rw [swap_cre, Op.mulNeg, Op.negMul, smul_neg]
          module
        simp only [e']
        rw [e, Finset.sum_range_add, Finset.sum_eq_zero, zero_add]
        · refine Finset.sum_congr rfl fun r _ => ?_
          rw [coreOne, core_one hc, if_neg (by omega), if_neg (by omega), Nat.add_sub_cancel_left, Nat.add_sub_cancel_left]
          congr 1; ring
        · intro r hr
          rw [coreOne, core_one hc, if_neg (by omega), if_pos (Finset.mem_range.1 hr), smul_zero]
      rw [Finset.sum_congr rfl this, Finset.sum_comm]
      refine Finset.sum_congr rfl fun q _ => ?_
      rw [Finset.sum_smul]
    · refine Finset.sum_congr rfl fun q _ => ?_
      rw [Finset.sum_range_add, Finset.sum_eq_zero, zero_add]
      · refine Finset.sum_congr rfl fun r _ => ?_
        rw [Finset.sum_range_add, Finset.sum_eq_zero, zero_add]
        · refine Finset.sum_congr rfl fun s _ => ?_
          rw [core_two_above hc (by omega) (by omega), if_neg (by omega)]
          simp only [Nat.add_sub_cancel_left]
        · intro s hs
          rw [core_two_above hc (by omega) (by omega), if_pos (.inr (Finset.mem_range.1 hs)), smul_zero]
      · intro r hr
        refine Finset.sum_eq_zero fun s _ => ?_
        rw [core_two_above hc (by omega) (by omega), if_pos (.inl (Finset.mem_range.1 hr)), smul_zero]
  rw [h1, h2]
  have h3 : ∀ p q, (∑ i ∈ Finset.range c, (v i (c + p) (c + q) i - v i (c + p) i (c + q) + v (c + p) i i (c + q) - v (c + p) i (c + q) i)) • (aDag p * aAnn q) =
      (∑ i ∈ Finset.range c, (v i (c + p) (c + q) i - v i (c + p) i (c + q))) • (aDag p * aAnn q) +
      (∑ i ∈ Finset.range c, (v (c + p) i i (c + q) - v (c + p) i (c + q) i)) • (aDag p * aAnn q) := by
    intro p q
    rw [← add_smul, ← Finset.sum_add_distrib]
    congr 1
    exact Finset.sum_congr rfl fun i _ => by ring
  simp only [h3, Finset.sum_add_distrib]
  abel

/-- **the frozen-core identity** for a two-body operator over `c + m` spin orbitals, `c` of them (an even number) full -/
theorem frozen_core {c : ℕ} (hc : Even c) (m : ℕ) (E : ℝ) (h : ℕ → ℕ → ℝ) (v : ℕ → ℕ → ℕ → ℕ → ℝ) :
    coreAmps c * twoBodyOp (c + m) E h v * withCore c =
      twoBodyOp m (E + ∑ p ∈ Finset.range c, h p p + 1 / 2 * ∑ p ∈ Finset.range c, ∑ q ∈ Finset.range c, (v p q q p - v p q p q))
        (fun p q => h (c + p) (c + q) + 1 / 2 * ∑ i ∈ Finset.range c, (v i (c + p) (c + q) i - v i (c + p) i (c + q) + v (c + p) i i (c + q) - v (c + p) i (c + q) i))
        (fun p q r s => v (c + p) (c + q) (c + r) (c + s)) := by
  unfold twoBodyOp
  have e1 := core_sum_one hc m fun p q => (h p q : ℂ)
  have e2 := core_sum_two hc m fun p q r s => (v p q r s : ℂ)
  have t1 : coreAmps c * (∑ p ∈ Finset.range (c + m), ∑ q ∈ Finset.range (c + m), (h p q : ℂ) • (aDag p * aAnn q)) * withCore c =
      ∑ p ∈ Finset.range (c + m), ∑ q ∈ Finset.range (c + m), (h p q : ℂ) • coreOne c p q := by
    simp only [Finset.mul_sum, Finset.sum_mul, mul_smul_comm, smul_mul_assoc, coreOne]
  have t2 : coreAmps c * (∑ p ∈ Finset.range (c + m), ∑ q ∈ Finset.range (c + m), ∑ r ∈ Finset.range (c + m), ∑ s ∈ Finset.range (c + m),
        (v p q r s : ℂ) • (aDag p * aDag q * aAnn r * aAnn s)) * withCore c =
      ∑ p ∈ Finset.range (c + m), ∑ q ∈ Finset.range (c + m), ∑ r ∈ Finset.range (c + m), ∑ s ∈ Finset.range (c + m),
        (v p q r s : ℂ) • (coreAmps c * (aDag p * aDag q * aAnn r * aAnn s) * withCore c) := by
    simp only [Finset.mul_sum, Finset.sum_mul, mul_smul_comm, smul_mul_assoc]
  rw [mul_add, mul_add, add_mul, add_mul, mul_smul_comm, smul_mul_assoc, mul_smul_comm, smul_mul_assoc, t1, t2, e1, e2, mul_one, coreAmps_withCore]
  push_cast
  simp only [smul_add, add_smul, mul_smul, Finset.sum_add_distrib, Finset.smul_sum]
  abel

end QF
