import Verif.Lemmas.QFT

/-!
C41, C42: the quantum Fourier transform.  `IsDFT` (Spec/DFT) is the discrete Fourier transform of the number held by the
block, qubit `na` being the most significant one.
-/
namespace QF

/-- C41: for every block, `qft_circuit(na, nb, 'forward')` is the discrete Fourier transform, `'reverse'` its inverse,
every other direction raises; all gates are API gates inside the block (so both run on any computer with more than `nb`
qubits). -/
theorem C41_circuit (na nb : ℕ) (h : na ≤ nb) : ∃ C R,
    qftCircuit na nb "forward" = .ok C ∧ qftCircuit na nb "reverse" = .ok R ∧
    (∀ d, d ≠ "forward" → d ≠ "reverse" → qftCircuit na nb d = .error .valueError) ∧
    IsDFT na (nb - na + 1) C.op ∧ R.op * C.op = 1 ∧ C.op * R.op = 1 ∧ C.Fits (nb + 1) ∧ ∀ g ∈ C, ApiGate g := by
  have hL : nb + 1 - na = nb - na + 1 := by omega
  refine ⟨qftList na (nb + 1 - na), (qftList na (nb + 1 - na)).adjoint, ?_, ?_, ?_, ?_, ?_, ?_, ?_, ?_⟩
  · rw [qftCircuit_eq, if_pos rfl]
  · rw [qftCircuit_eq, if_neg (by decide), if_pos rfl]
  · intro d h1 h2; rw [qftCircuit_eq, if_neg h1, if_neg h2]
  · rw [hL]; exact qftList_dft _ _
  · exact (circuit_adjoint_op fun g hg => (qftList_gates _ _ g hg).1).1
  · exact (circuit_adjoint_op fun g hg => (qftList_gates _ _ g hg).1).2
  · intro g hg
    have := (qftList_gates _ _ g hg).2.2
    omega
  · exact fun g hg => (qftList_gates _ _ g hg).1

open Classical in
/-- C41 on basis states: `|x⟩` on the block goes to `2^{-L/2} ∑_y exp(2πi x y / 2^L) |y⟩`, the other qubits are untouched. -/
theorem C41_basis_state (na L J I : ℕ) (U : Op) (hU : IsDFT na L U) :
    U (Pi.single J 1) I = if ∀ q, ¬ (na ≤ q ∧ q < na + L) → I.testBit q = J.testBit q then
      ((1 / Real.sqrt (2 ^ L) : ℝ) : ℂ) *
        Complex.exp (2 * Real.pi * Complex.I * ((blockVal J na L * blockVal I na L : ℕ) : ℂ) / ((2 ^ L : ℕ) : ℂ))
      else 0 := by
  rw [hU]
  by_cases h : ∀ q, ¬ (na ≤ q ∧ q < na + L) → I.testBit q = J.testBit q
  · rw [if_pos h]
    congr 1
    have key : ∀ x, x < 2 ^ L → (setBlock I na L x = J ↔ x = blockVal J na L) := by
      intro x hx
      constructor
      · intro e; rw [← e, blockVal_setBlock I L na x hx]
      · intro e
        have hv : blockVal (setBlock I na L x) na L = blockVal J na L := by rw [blockVal_setBlock I L na x hx, e]
        -- equal values of a block mean equal bits
        have inj : ∀ (L na : ℕ) (K K' : ℕ), blockVal K na L = blockVal K' na L → ∀ q, na ≤ q → q < na + L → K.testBit q = K'.testBit q := by
          intro L
          induction L with
          | zero => intro na K K' _ q h1 h2; omega
          | succ L ih =>
            intro na K K' e q h1 h2
            rw [blockVal_succ, blockVal_succ] at e
            have l1 := blockVal_lt K L (na + 1)
            have l2 := blockVal_lt K' L (na + 1)
            have hb : K.testBit na = K'.testBit na ∧ blockVal K (na + 1) L = blockVal K' (na + 1) L := by
              cases e1 : K.testBit na <;> cases e2 : K'.testBit na <;> simp [e1, e2] at e ⊢ <;> omega
            by_cases hq : q = na
            · rw [hq]; exact hb.1
            · exact ih (na + 1) K K' hb.2 q (by omega) (by omega)
        apply eq_of_bits; intro q
        by_cases hq : na ≤ q ∧ q < na + L
        · exact inj L na _ _ hv q hq.1 hq.2
        · rw [setBlock_testBit, if_neg hq]; exact h q hq
    rw [Finset.sum_eq_single_of_mem (blockVal J na L) (Finset.mem_range.2 (blockVal_lt J L na))]
    · rw [(key _ (blockVal_lt J L na)).2 rfl, Pi.single_eq_same, mul_one]
    · intro x hx hne
      rw [Pi.single_eq_of_ne, mul_zero]
      exact fun e => hne ((key x (Finset.mem_range.1 hx)).1 e)
  · rw [if_neg h]
    have : ∀ x, setBlock I na L x ≠ J := by
      intro x e
      apply h
      intro q hq
      rw [← e, setBlock_testBit, if_neg hq]
    rw [Finset.sum_eq_zero, mul_zero]
    intro x _
    rw [Pi.single_eq_of_ne (this x), mul_zero]

/-- C41 on a computer: `qft(state, na, nb)` leaves the Fourier transform of the state. -/
theorem C41_qft (q : Computer) (hq : q.WF) (na nb : ℕ) (h : na ≤ nb) (hn : nb < q.nqubit) :
    ∃ q' U, q.qft na nb = .ok q' ∧ q'.WF ∧ q'.nqubit = q.nqubit ∧ IsDFT na (nb - na + 1) U ∧ q'.psi = U q.psi := by
  have hL : nb + 1 - na = nb - na + 1 := by omega
  obtain ⟨q', e1, e2, e3, e4⟩ := applyCircuit_exact (qftList na (nb + 1 - na)) hq (by
    intro g hg
    have := (qftList_gates _ _ g hg).2.2
    omega) (fun g hg => (qftList_gates _ _ g hg).2.1)
  refine ⟨q', Circuit.op (qftList na (nb + 1 - na)), ?_, e2, e3, hL ▸ qftList_dft _ _, e4⟩
  unfold Computer.qft
  rw [qftCircuit_eq, if_pos rfl, except_ok_bind, e1]

theorem C41_example : ∃ C, qftCircuit 1 3 "forward" = .ok C ∧ IsDFT 1 3 C.op ∧ C.length = 7 := by
  refine ⟨qftList 1 3, by rw [qftCircuit_eq, if_pos rfl], qftList_dft 1 3, ?_⟩
  simp [qftList, stages, crs, swaps, List.range_succ]

/-! ### C42 -/

theorem ee_sum (N s : ℕ) (hN : 0 < N) : ∑ x ∈ Finset.range N, ee ((x * s : ℕ) / N) = if N ∣ s then (N : ℂ) else 0 := by
  have hN' : (N : ℝ) ≠ 0 := by positivity
  have hpow : ∀ x : ℕ, ee ((x * s : ℕ) / N) = ee (s / N) ^ x := by
    intro x
    unfold ee; rw [← Complex.exp_nat_mul]; congr 1; push_cast; ring
  simp only [hpow]
  have hone : ee ((s : ℝ) / N) ^ N = 1 := by
    rw [← hpow]
    rw [show ((N * s : ℕ) : ℝ) / N = (s : ℝ) by push_cast; field_simp]
    exact ee_nat s
  split_ifs with h
  · obtain ⟨k, rfl⟩ := h
    have : ee (((N * k : ℕ) : ℝ) / N) = 1 := by
      rw [show ((N * k : ℕ) : ℝ) / N = (k : ℝ) by push_cast; field_simp]; exact ee_nat k
    rw [this]; simp
  · have hne : ee ((s : ℝ) / N) ≠ 1 := by
      intro e
      unfold ee at e
      rw [Complex.exp_eq_one_iff] at e
      obtain ⟨n, hn⟩ := e
      have h2 : (2 * Real.pi * Complex.I : ℂ) ≠ 0 := Complex.two_pi_I_ne_zero
      have h3 : (((s : ℝ) / N : ℝ) : ℂ) = (n : ℂ) := by
        apply mul_left_cancel₀ h2; rw [hn]; ring
      have h4 : ((s : ℝ) / N : ℝ) = (n : ℝ) := by exact_mod_cast h3
      rw [div_eq_iff hN'] at h4
      have h5 : (s : ℤ) = n * N := by exact_mod_cast h4
      exact h (Int.natCast_dvd_natCast.1 ⟨n, by rw [h5]; ring⟩)
    rw [geom_sum_eq hne, hone]; simp

/-- applying the transform twice negates the number in the block, modulo `2^L` -/
theorem dft_sq {na L : ℕ} {U : Op} (hU : IsDFT na L U) (ψ : St) (I : ℕ) :
    U (U ψ) I = ψ (setBlock I na L ((2 ^ L - blockVal I na L) % 2 ^ L)) := by
  have hset : ∀ x y, setBlock (setBlock I na L x) na L y = setBlock I na L y := by
    intro x y; apply eq_of_bits; intro q
    rw [setBlock_testBit, setBlock_testBit, setBlock_testBit]
    split_ifs <;> rfl
  have hv := blockVal_lt I L na
  set v := blockVal I na L with hvd
  rw [hU]
  have inner : ∀ x ∈ Finset.range (2 ^ L), Complex.exp (2 * Real.pi * Complex.I * ((x * v : ℕ) : ℂ) / ((2 ^ L : ℕ) : ℂ)) * U ψ (setBlock I na L x) =
      ((1 / Real.sqrt (2 ^ L) : ℝ) : ℂ) * ∑ y ∈ Finset.range (2 ^ L), ee (((x * (v + y) : ℕ) : ℝ) / ((2 ^ L : ℕ) : ℝ)) * ψ (setBlock I na L y) := by
    intro x hx
    rw [hU, blockVal_setBlock I L na x (Finset.mem_range.1 hx), mul_left_comm, Finset.mul_sum]
    congr 1
    apply Finset.sum_congr rfl
    intro y _
    rw [hset, ← mul_assoc, ← Complex.exp_add]
    congr 1
    unfold ee; congr 1; push_cast; ring
  rw [Finset.sum_congr rfl inner, ← Finset.mul_sum, Finset.sum_comm, ← mul_assoc]
  have outer : ∀ y ∈ Finset.range (2 ^ L), ∑ x ∈ Finset.range (2 ^ L), ee (((x * (v + y) : ℕ) : ℝ) / ((2 ^ L : ℕ) : ℝ)) * ψ (setBlock I na L y) =
      if y = (2 ^ L - v) % 2 ^ L then ((2 ^ L : ℕ) : ℂ) * ψ (setBlock I na L y) else 0 := by
    intro y hy
    have hy := Finset.mem_range.1 hy
    rw [← Finset.sum_mul, ee_sum _ _ (by positivity)]
    have : 2 ^ L ∣ v + y ↔ y = (2 ^ L - v) % 2 ^ L := by
      constructor
      · rintro ⟨k, hk⟩
        have : k = 0 ∨ k = 1 := by
          have : k < 2 := by
            by_contra hc
            have : 2 ^ L * 2 ≤ 2 ^ L * k := Nat.mul_le_mul_left _ (by omega)
            omega
          omega
        rcases this with rfl | rfl
        · have h1 : v = 0 := by omega
          have h2 : y = 0 := by omega
          rw [h1, h2]; simp
        · rw [Nat.mod_eq_of_lt (by omega)]; omega
      · intro e
        by_cases h0 : v = 0
        · rw [h0] at e ⊢; simp at e; rw [e]; simp
        · rw [Nat.mod_eq_of_lt (by omega)] at e
          rw [e]; exact ⟨1, by omega⟩
    by_cases h : 2 ^ L ∣ v + y
    · rw [if_pos h, if_pos (this.1 h)]
    · rw [if_neg h, if_neg (fun e => h (this.2 e)), zero_mul]
  rw [Finset.sum_congr rfl outer, Finset.sum_ite_eq', if_pos (Finset.mem_range.2 (Nat.mod_lt _ (by positivity))), ← mul_assoc]
  have hs : (((1 / Real.sqrt (2 ^ L) : ℝ) : ℂ) * ((1 / Real.sqrt (2 ^ L) : ℝ) : ℂ)) * ((2 ^ L : ℕ) : ℂ) = 1 := by
    have : (1 / Real.sqrt (2 ^ L)) * (1 / Real.sqrt (2 ^ L)) * (2 ^ L : ℝ) = 1 := by
      rw [div_mul_div_comm, Real.mul_self_sqrt (by positivity)]; field_simp
    exact_mod_cast this
  rw [hs, one_mul]

/-- C42, finding F5: `rev_qft` runs the adjoint of the reverse circuit, that is the forward transform again.  After
`rev_qft(qft(state))` the number in every block is negated modulo `2^L` instead of restored. -/
theorem C42_rev_qft_negates (q : Computer) (hq : q.WF) (na nb : ℕ) (h : na ≤ nb) (hn : nb < q.nqubit) :
    ∃ q1 q2, q.qft na nb = .ok q1 ∧ q1.revQft na nb = .ok q2 ∧ q2.WF ∧ q2.nqubit = q.nqubit ∧
      ∀ I, q2.psi I = q.psi (setBlock I na (nb - na + 1) ((2 ^ (nb - na + 1) - blockVal I na (nb - na + 1)) % 2 ^ (nb - na + 1))) := by
  have hL : nb + 1 - na = nb - na + 1 := by omega
  have hg := qftList_gates na (nb + 1 - na)
  set c := qftList na (nb + 1 - na) with hc
  obtain ⟨q1, e1, e2, e3, e4⟩ := applyCircuit_exact c hq (by
    intro g hx; have := (hg g hx).2.2; omega) (fun g hx => (hg g hx).2.1)
  have mem1 : ∀ (d : Circuit), ∀ g ∈ d.adjoint, ∃ x ∈ d, g = x.adjoint := by
    intro d g hx
    obtain ⟨x, hx', rfl⟩ := List.mem_map.1 (List.mem_reverse.1 hx)
    exact ⟨x, hx', rfl⟩
  have mem2 : ∀ g ∈ c.adjoint.adjoint, ApiGate g ∧ ExactGate g ∧ g.target < q.nqubit ∧ g.control < q.nqubit := by
    intro g hx
    obtain ⟨y, hy, rfl⟩ := mem1 _ g hx
    obtain ⟨z, hz, rfl⟩ := mem1 _ y hy
    obtain ⟨a1, a2, a3, a4⟩ := hg z hz
    refine ⟨.adj (.adj a1), .adjoint (.adj a1) (.adjoint a1 a2), ?_, ?_⟩
    · rw [(adjoint_target _).1, (adjoint_target _).1]; omega
    · rw [(adjoint_target _).2, (adjoint_target _).2]; omega
  obtain ⟨q2, f1, f2, f3, f4⟩ := applyCircuit_exact c.adjoint.adjoint e2 (by
    intro g hx; have := (mem2 g hx).2.2; omega) (fun g hx => (mem2 g hx).2.1)
  have hop : Circuit.op c.adjoint.adjoint = c.op := by
    have h1 := (circuit_adjoint_op (c := c) fun g hx => (hg g hx).1).1
    have h2 := (circuit_adjoint_op (c := c.adjoint) (by
      intro g hx; obtain ⟨y, hy, rfl⟩ := mem1 _ g hx; exact .adj (hg y hy).1)).1
    calc c.adjoint.adjoint.op = c.adjoint.adjoint.op * (c.adjoint.op * c.op) := by rw [h1, mul_one]
      _ = c.op := by rw [← mul_assoc, h2, one_mul]
  refine ⟨q1, q2, ?_, ?_, f2, by rw [f3, e3], ?_⟩
  · unfold Computer.qft; rw [qftCircuit_eq, if_pos rfl, except_ok_bind, ← hc, e1]
  · unfold Computer.revQft; rw [qftCircuit_eq, if_neg (by decide), if_pos rfl, except_ok_bind, ← hc, f1]
  · intro I
    rw [f4, e4, hop]
    have := dft_sq (qftList_dft na (nb + 1 - na)) q.psi I
    rw [hL] at this
    rw [hc, hL]; exact this

/-- C42 holds for blocks of one qubit. -/
theorem C42_one_qubit_partial (q : Computer) (hq : q.WF) (na : ℕ) (hn : na < q.nqubit) :
    ∃ q1 q2, q.qft na na = .ok q1 ∧ q1.revQft na na = .ok q2 ∧ q2.psi = q.psi := by
  obtain ⟨q1, q2, h1, h2, _, _, h3⟩ := C42_rev_qft_negates q hq na na le_rfl hn
  refine ⟨q1, q2, h1, h2, ?_⟩
  funext I
  rw [h3]
  congr 1
  apply eq_of_bits; intro p
  rw [setBlock_testBit]
  simp only [Nat.sub_self, zero_add, pow_one]
  split_ifs with h
  · have : p = na := by omega
    subst this
    simp [blockVal]
    cases I.testBit p <;> rfl
  · rfl

/-- C42 is false for every larger block: the basis state with 1 in the block is not restored. -/
theorem C42_refuted (n na nb : ℕ) (h : na < nb) (hn : nb < n) :
    ∃ q : Computer, q.WF ∧ q.nqubit = n ∧ ∃ q1 q2, q.qft na nb = .ok q1 ∧ q1.revQft na nb = .ok q2 ∧ q2.psi ≠ q.psi := by
  have hb : 2 ^ nb < 2 ^ n := Nat.pow_lt_pow_right (by norm_num) hn
  let q : Computer := { Computer.init n with coeff := (List.replicate (2 ^ n) 0).set (2 ^ nb) 1 }
  have hq : q.WF := ⟨rfl, by simp [q, Computer.init], rfl⟩
  obtain ⟨q1, q2, h1, h2, _, _, h3⟩ := C42_rev_qft_negates q hq na nb h.le hn
  refine ⟨q, hq, rfl, q1, q2, h1, h2, ?_⟩
  intro e
  have hpsi : q.psi = Pi.single (2 ^ nb) 1 := by
    funext I
    by_cases hI : I = 2 ^ nb
    · subst hI; simp [Computer.psi, vec, q, hb]
    · rw [Pi.single_eq_of_ne hI]
      simp [Computer.psi, vec, q, List.getElem?_set_ne (Ne.symm hI), List.getElem?_replicate]
      split_ifs <;> rfl
  have h4 := h3 (2 ^ nb)
  rw [e, hpsi, Pi.single_eq_same] at h4
  have hv : blockVal (2 ^ nb) na (nb - na + 1) = 1 := by
    unfold blockVal
    rw [Finset.sum_range_succ, Finset.sum_eq_zero]
    · simp [show na + (nb - na) = nb by omega]
    · intro i hi
      have := Finset.mem_range.1 hi
      rw [Nat.testBit_two_pow_of_ne (by omega)]; simp
  rw [hv] at h4
  have hN : 2 < 2 ^ (nb - na + 1) := by
    calc 2 < 2 ^ 2 := by norm_num
      _ ≤ _ := Nat.pow_le_pow_right (by norm_num) (by omega)
  rw [Nat.mod_eq_of_lt (by omega)] at h4
  rw [Pi.single_eq_of_ne] at h4
  · exact one_ne_zero h4
  · intro e'
    have := blockVal_setBlock (2 ^ nb) (nb - na + 1) na (2 ^ (nb - na + 1) - 1) (by omega)
    rw [e', hv] at this
    omega

end QF
