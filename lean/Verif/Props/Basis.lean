import Verif.Model.QubitBasis

/-!
Property C01: the bit laws of QubitBasis, and the refinement of the 64-bit implementation by the
mathematical bit operations `Nat.testBit`, `setBit`, `flipBit` of Spec/Bits.lean.
-/
namespace QF
namespace QubitBasis

theorem getLsbD_maskbit {pos : ℕ} (h : pos < 64) (i : ℕ) :
    (maskbit pos).getLsbD i = decide (i = pos) := by
  unfold maskbit
  rw [BitVec.getLsbD_shiftLeft]
  by_cases hi : i = pos
  · subst hi; simp [h]
  · by_cases h2 : i < pos
    · simp [h2, hi]
    · have : i - pos ≠ 0 := by omega
      simp [this, hi]

/-- `get_bit` reads the bit of the index -/
theorem C01_get_bit (b : QubitBasis) {pos : ℕ} (h : pos < 64) : b.getBit pos = b.index.testBit pos := by
  unfold getBit index
  rw [BitVec.testBit_toNat]
  by_cases hb : b.state.getLsbD pos
  · rw [hb]
    simp only [bne_iff_ne, ne_eq]
    intro h0
    have := congrArg (fun v => v.getLsbD pos) h0
    simp [getLsbD_maskbit h, hb] at this
  · simp only [Bool.not_eq_true] at hb
    rw [hb]
    simp only [bne_eq_false_iff_eq]
    apply BitVec.eq_of_getLsbD_eq
    intro i hi
    simp only [BitVec.getLsbD_and, getLsbD_maskbit h, BitVec.getLsbD_zero]
    by_cases hip : i = pos
    · subst hip; simp [hb]
    · simp [hip]

theorem getLsbD_setBit (b : QubitBasis) {pos : ℕ} (h : pos < 64) (v : Bool) (i : ℕ) :
    (b.setBit pos v).state.getLsbD i = if i = pos then v else b.state.getLsbD i := by
  unfold setBit
  simp only [BitVec.getLsbD_xor, BitVec.getLsbD_and, getLsbD_maskbit h]
  by_cases hi : i = pos
  · subst hi
    have h1 : (negBool v).getLsbD i = v := by
      unfold negBool; cases v
      · simp
      · simp only [if_true, BitVec.getLsbD_allOnes, h, decide_true]
    rw [h1]; cases v <;> simp
  · simp [hi]

theorem getLsbD_flipBit (b : QubitBasis) {pos : ℕ} (h : pos < 64) (i : ℕ) :
    (b.flipBit pos).state.getLsbD i = if i = pos then !b.state.getLsbD i else b.state.getLsbD i := by
  unfold flipBit
  simp only [BitVec.getLsbD_xor, getLsbD_maskbit h]
  by_cases hi : i = pos <;> simp [hi]

/-- `set_bit` refines the mathematical `setBit` on the index -/
theorem C01_set_bit (b : QubitBasis) {pos : ℕ} (h : pos < 64) (v : Bool) :
    (b.setBit pos v).index = QF.setBit b.index pos v := by
  apply eq_of_bits; intro i
  simp only [index, BitVec.testBit_toNat, getLsbD_setBit b h, testBit_setBit]

/-- `flip_bit` refines the mathematical `flipBit` on the index -/
theorem C01_flip_bit (b : QubitBasis) {pos : ℕ} (h : pos < 64) :
    (b.flipBit pos).index = QF.flipBit b.index pos := by
  apply eq_of_bits; intro i
  simp only [index, BitVec.testBit_toNat, getLsbD_flipBit b h, testBit_flipBit]
  by_cases hi : i = pos
  · subst hi; simp
  · simp [hi]

/-- C01: the bit laws: read-over-write, flip inverts exactly one bit, flip is an involution, and an
`n`-qubit index stays an `n`-qubit index. -/
theorem C01_laws (b : QubitBasis) {p q n : ℕ} (hp : p < 64) (hq : q < 64) (v : Bool) :
    ((b.setBit p v).getBit q = if q = p then v else b.getBit q) ∧
    ((b.flipBit p).getBit q = if q = p then !b.getBit p else b.getBit q) ∧
    (b.flipBit p).flipBit p = b ∧
    (p < n → (b.index < 2 ^ n ↔ (b.setBit p v).index < 2 ^ n) ∧
      (b.index < 2 ^ n ↔ (b.flipBit p).index < 2 ^ n)) := by
  refine ⟨?_, ?_, ?_, ?_⟩
  · rw [C01_get_bit _ hq, C01_set_bit _ hp, testBit_setBit, C01_get_bit _ hq]
  · rw [C01_get_bit _ hq, C01_flip_bit _ hp, testBit_flipBit, C01_get_bit _ hq, C01_get_bit _ hp]
  · unfold flipBit
    rw [BitVec.xor_assoc, BitVec.xor_self, BitVec.xor_zero]
  · intro hpn
    rw [C01_set_bit _ hp, C01_flip_bit _ hp, setBit_lt hpn, flipBit_lt hpn]
    exact ⟨Iff.rfl, Iff.rfl⟩

/-- construction from an index and back, for every index of a register of at most 64 qubits -/
theorem C01_index_ofNat {n : ℕ} (h : n < 2 ^ 64) : (ofNat n).index = n := by
  simp only [ofNat, index, BitVec.toNat_ofNat]; exact Nat.mod_eq_of_lt h

/-- `str(n)` prints `|`, then bit 0 first, then `>`: two basis states of an `n`-qubit register
(`n ≤ 64`) print the same iff they are the same state. -/
theorem C01_str_injective {a b : QubitBasis} {n : ℕ} (hn : n ≤ 64)
    (ha : a.index < 2 ^ n) (hb : b.index < 2 ^ n) (h : a.str n = b.str n) : a.index = b.index := by
  have h' : (List.range n).map (fun i => if a.getBit i then '1' else '0')
      = (List.range n).map (fun i => if b.getBit i then '1' else '0') := by
    have := congrArg String.toList h
    simpa [str] using this
  apply eq_of_bits; intro i
  by_cases hi : i < n
  · have e := List.map_inj_left.1 h' i (List.mem_range.2 hi)
    rw [C01_get_bit _ (by omega), C01_get_bit _ (by omega)] at e
    cases h1 : a.index.testBit i <;> cases h2 : b.index.testBit i <;> simp_all
  · rw [Nat.testBit_lt_two_pow (lt_of_lt_of_le ha (Nat.pow_le_pow_right (by norm_num) (by omega))),
      Nat.testBit_lt_two_pow (lt_of_lt_of_le hb (Nat.pow_le_pow_right (by norm_num) (by omega)))]

/-- the laws are not vacuous: a concrete run on the top bit -/
example : ((ofNat 5).setBit 63 true).getBit 63 = true ∧ ((ofNat 5).flipBit 0).index = 4 := by
  refine ⟨?_, ?_⟩
  · rw [(C01_laws (n := 64) (ofNat 5) (by norm_num) (by norm_num) true).1]; simp
  · rw [C01_flip_bit _ (by norm_num), C01_index_ofNat (by decide)]; decide

end QubitBasis
end QF
