import Verif.Lemmas.QPE

/-!
C80, C81: quantum phase estimation.
-/
namespace QF

/-- the trial state `Uprep |0…0⟩` -/
noncomputable def QpeAlg.trial (A : QpeAlg) : St := A.uprep.op (fun I => if I = 0 then 1 else 0)

/-- the amplitude with which phase estimation with `a` ancillas reads the number `x` when the phase of the state is `φ` (in turns):
`2^{-a} Σ_{y < 2^a} e^{2πi y (φ - x/2^a)}` -/
noncomputable def qpeAmp (a : ℕ) (φ : ℝ) (x : ℕ) : ℂ := 1 / 2 ^ a * ∑ y ∈ Finset.range (2 ^ a), ee (y * (φ - x / 2 ^ a))

theorem trial_onReg {A : QpeAlg} (hA : A.Ready) (J : ℕ) (hJ : 2 ^ A.nqb ≤ J) : A.trial J = 0 := by
  obtain ⟨q, _, h2, h3, h4⟩ := applyCircuit_exact A.uprep (Computer.WF.init A.nqb) hA.prep.1 hA.prep.2
  have := psi_onReg h2 J (by rw [h3]; exact hJ)
  rw [h4, init_psi] at this
  exact this

theorem trial_norm {A : QpeAlg} (hA : A.Ready) : inner A.nqb A.trial A.trial = 1 := by
  unfold QpeAlg.trial
  rw [inner_circuit hA.prep.1 fun g hg => (hA.prep.2 g hg).unitary]
  unfold inner
  rw [Finset.sum_eq_single 0]
  · simp
  · intro b _ hb; simp [hb]
  · intro h; exact absurd (Finset.mem_range.2 (Nat.two_pow_pos _)) h

theorem leVal_lt (I j : ℕ) : ∀ d, leVal I j d < 2 ^ d := by
  intro d
  induction d with
  | zero => simp [leVal]
  | succ d ih =>
    rw [leVal_snoc, pow_succ]
    cases I.testBit (j + d) <;> simp <;> omega

theorem hads_comm {n a : ℕ} {U : Op} (hU : ∀ q, n ≤ q → OffQubit q U) : Commute (hads n a).op U := by
  induction a with
  | zero => exact Commute.one_left _
  | succ a ih =>
    rw [hads_snoc, Circuit.op_append]
    refine Commute.mul_left ?_ ih
    have h1 : Commute (opX (n + a)) U := hU (n + a) (by omega) _
    have h2 : Commute (opZ (n + a)) U := hU (n + a) (by omega) _
    show Commute (1 * (gH (n + a)).op) U
    rw [one_mul, op_gH]
    exact (h1.add_left h2).smul_left _

theorem ee_diff_sum (N z y : ℕ) (hz : z < N) (hy : y < N) : ∑ x ∈ Finset.range N, ee (x * ((z : ℝ) - y) / N) = if z = y then (N : ℂ) else 0 := by
  have hN : 0 < N := by omega
  have h := ee_sum N (z + (N - y)) hN
  have e : ∀ x : ℕ, ee (x * ((z : ℝ) - y) / N) = ee ((x * (z + (N - y)) : ℕ) / N) := by
    intro x
    have : (((x * (z + (N - y)) : ℕ) : ℝ)) / N = x * ((z : ℝ) - y) / N + (x : ℕ) := by
      rw [Nat.cast_mul, Nat.cast_add, Nat.cast_sub hy.le]
      have : (N : ℝ) ≠ 0 := by positivity
      field_simp; ring
    rw [this, ee_add, ee_nat, mul_one]
  rw [Finset.sum_congr rfl fun x _ => e x, h]
  congr 1
  apply propext
  constructor
  · rintro ⟨k, hk⟩
    have h1 : k < 2 := by
      by_contra hc
      have := Nat.mul_le_mul_left N (show 2 ≤ k by omega)
      omega
    have h2 : 0 < k := by
      rcases Nat.eq_zero_or_pos k with h0 | h0
      · rw [h0] at hk; omega
      · exact h0
    have : k = 1 := by omega
    subst this; omega
  · rintro rfl; exact ⟨1, by omega⟩

theorem setBlock_setBlock (I n a x y : ℕ) : setBlock (setBlock I n a x) n a y = setBlock I n a y := by
  apply Nat.eq_of_testBit_eq
  intro q
  rw [setBlock_testBit, setBlock_testBit, setBlock_testBit]
  split_ifs <;> rfl

theorem ee_pow (x : ℝ) (n : ℕ) : ee x ^ n = ee (n * x) := by
  unfold ee; rw [← Complex.exp_nat_mul]; congr 1; push_cast; ring

/-- the inverse transform, on the state phase kick-back leaves -/
theorem stages_phase (n a : ℕ) (φ : ℝ) (Φ : St) (I : ℕ) :
    Circuit.op (stages n a) (fun J => qpeAmp a φ (blockVal J n a) * Φ (setBlock J n a 0)) I =
      ((1 / Real.sqrt (2 ^ a) : ℝ) : ℂ) * (ee φ ^ leVal I n a * Φ (setBlock I n a 0)) := by
  rw [stages_apply]
  congr 1
  have hp : (2 : ℂ) ^ a ≠ 0 := pow_ne_zero _ (by norm_num)
  have e1 : ∀ x ∈ Finset.range (2 ^ a), ee ((x * leVal I n a : ℝ) / 2 ^ a) * (qpeAmp a φ (blockVal (setBlock I n a x) n a) * Φ (setBlock (setBlock I n a x) n a 0)) =
      1 / 2 ^ a * Φ (setBlock I n a 0) * ∑ y ∈ Finset.range (2 ^ a), ee (y * φ) * ee (x * ((leVal I n a : ℝ) - y) / ((2 ^ a : ℕ) : ℝ)) := by
    intro x hx
    rw [blockVal_setBlock I a n x (Finset.mem_range.1 hx), setBlock_setBlock]
    unfold qpeAmp
    rw [show ∀ u v w s : ℂ, u * (v * s * w) = v * w * (u * s) by intros; ring, Finset.mul_sum]
    congr 1
    refine Finset.sum_congr rfl fun y _ => ?_
    rw [← ee_add, ← ee_add]
    congr 1
    push_cast; field_simp; ring
  rw [Finset.sum_congr rfl e1, ← Finset.mul_sum, Finset.sum_comm]
  have e2 : ∀ y ∈ Finset.range (2 ^ a), ∑ x ∈ Finset.range (2 ^ a), ee (y * φ) * ee (x * ((leVal I n a : ℝ) - y) / ((2 ^ a : ℕ) : ℝ)) =
      if leVal I n a = y then ee (y * φ) * 2 ^ a else 0 := by
    intro y hy
    rw [← Finset.mul_sum, ee_diff_sum _ _ _ (leVal_lt I n a) (Finset.mem_range.1 hy)]
    split_ifs <;> simp
  rw [Finset.sum_congr rfl e2, Finset.sum_ite_eq, if_pos (Finset.mem_range.2 (leVal_lt I n a)), ee_pow]
  field_simp

theorem qftCirc_reverse (A : QpeAlg) (na : ℕ) : A.qftCirc na "reverse" = .ok (Circuit.adjoint (stages A.nqb na)) := by
  unfold QpeAlg.qftCirc
  rw [qftLoop_ok, except_ok_bind, if_neg (by decide), if_pos rfl]; rfl

/-- the circuit and its gates -/
theorem uqpe_ok {A : QpeAlg} (hA : A.Ready) (na : ℕ) : ∃ D W, A.uqpe na = .ok (hads A.nqb na ++ A.uprep ++ D ++ Circuit.adjoint (stages A.nqb na)) ∧
    (∀ Φ, TrotterState A.ham A.trotterNumber A.t Φ (W Φ)) ∧ (∀ q, A.nqb ≤ q → OffQubit q W) ∧ (∀ ψ I, D.op ψ I = (W ^ leVal I A.nqb na) ψ I) ∧
    (hads A.nqb na ++ A.uprep ++ D ++ Circuit.adjoint (stages A.nqb na)).Fits (Computer.init (A.nqb + na)).nqubit ∧
    ∀ g ∈ hads A.nqb na ++ A.uprep ++ D ++ Circuit.adjoint (stages A.nqb na), ExactGate g := by
  obtain ⟨D, W, d1, d2, d3, d4, d5, d6⟩ := dynamics_ok hA na
  have hgs := stages_gates na A.nqb
  have hfit : (hads A.nqb na ++ A.uprep ++ D ++ Circuit.adjoint (stages A.nqb na)).Fits (Computer.init (A.nqb + na)).nqubit := by
    show Circuit.Fits (A.nqb + na) _
    intro g hg
    simp only [List.mem_append] at hg
    rcases hg with ((hg | hg) | hg) | hg
    · obtain ⟨j, hj, rfl⟩ := List.mem_map.1 hg
      have := List.mem_range'_1.1 hj
      exact ⟨this.2, this.2⟩
    · have := hA.prep.1 g hg; omega
    · exact d5 g hg
    · obtain ⟨x, hx, rfl⟩ := List.mem_map.1 (List.mem_reverse.1 hg)
      rw [(adjoint_target x).1, (adjoint_target x).2]
      exact (hgs x hx).2.2
  have hex : ∀ g ∈ hads A.nqb na ++ A.uprep ++ D ++ Circuit.adjoint (stages A.nqb na), ExactGate g := by
    intro g hg
    simp only [List.mem_append] at hg
    rcases hg with ((hg | hg) | hg) | hg
    · obtain ⟨j, hj, rfl⟩ := List.mem_map.1 hg
      exact exact_H j
    · exact hA.prep.2 g hg
    · exact d6 g hg
    · exact adjoint_exact (fun x hx => ⟨(hgs x hx).1, (hgs x hx).2.1⟩) g hg
  refine ⟨D, W, ?_, d2, d3, d4, hfit, hex⟩
  unfold QpeAlg.uqpe
  rw [uhad_ok, except_ok_bind, d1, except_ok_bind, qftCirc_reverse, except_ok_bind]
  simp only [addCircuit_eq, List.nil_append]; rfl

theorem uqpe_gates {A : QpeAlg} (hA : A.Ready) {na : ℕ} {c : Circuit} (h : A.uqpe na = .ok c) :
    c.Fits (Computer.init (A.nqb + na)).nqubit ∧ ∀ g ∈ c, ExactGate g := by
  obtain ⟨D, W, e, _, _, _, h1, h2⟩ := uqpe_ok hA na
  rw [h] at e
  cases e
  exact ⟨h1, h2⟩

/-- C80: the state of the register before measurement.  When the trial state is an eigenvector of the Trotterized evolution with eigenvalue
`e^{2πiφ}`, the amplitude of a basis state whose ancillas hold the number `x` (first ancilla most significant) is `qpeAmp a φ x` times the
amplitude of the trial state on the other qubits. -/
theorem C80_state (A : QpeAlg) (hA : A.Ready) (na : ℕ) (φ : ℝ) (hφ : TrotterState A.ham A.trotterNumber A.t A.trial (ee φ • A.trial)) :
    ∃ c q, A.uqpe na = .ok c ∧ (Computer.init (A.nqb + na)).applyCircuit c = .ok q ∧ q.WF ∧ q.nqubit = A.nqb + na ∧
      ∀ I, q.psi I = qpeAmp na φ (blockVal I A.nqb na) * A.trial (setBlock I A.nqb na 0) := by
  obtain ⟨D, W, d1, d2, d3, d4, hfit, hex⟩ := uqpe_ok hA na
  have hW : W A.trial = ee φ • A.trial := (d2 A.trial).unique hφ
  have hWy : ∀ y : ℕ, (W ^ y) A.trial = ee φ ^ y • A.trial := by
    intro y
    induction y with
    | zero => simp
    | succ y ih => rw [pow_succ, Module.End.mul_apply, hW, map_smul, ih, smul_smul, pow_succ, mul_comm]
  have hgs := stages_gates na A.nqb
  refine ⟨hads A.nqb na ++ A.uprep ++ D ++ Circuit.adjoint (stages A.nqb na), ?_⟩
  obtain ⟨q, q1, q2, q3, q4⟩ := applyCircuit_exact _ (Computer.WF.init (A.nqb + na)) hfit hex
  refine ⟨q, d1, q1, q2, q3, fun I => ?_⟩
  · rw [q4, init_psi, Circuit.op_append, Circuit.op_append, Circuit.op_append, Module.End.mul_apply, Module.End.mul_apply, Module.End.mul_apply]
    have hoff : ∀ q, A.nqb ≤ q → OffQubit q A.uprep.op := by
      intro q hq m
      refine circuit_comm_op1 m fun g hg => ?_
      have := hA.prep.1 g hg
      omega
    have c1 : A.uprep.op ((hads A.nqb na).op fun I => if I = 0 then 1 else 0) = (hads A.nqb na).op A.trial :=
      (LinearMap.congr_fun (hads_comm hoff).eq _).symm
    have hsup : ∀ J i, i < na → J.testBit (A.nqb + i) = true → A.trial J = 0 := by
      intro J i _ h
      refine trial_onReg hA J ?_
      by_contra hc
      rw [Nat.testBit_lt_two_pow (lt_of_lt_of_le (not_le.1 hc) (Nat.pow_le_pow_right (by norm_num) (by omega)))] at h
      cases h
    have c2 : D.op ((hads A.nqb na).op A.trial) = Circuit.op (stages A.nqb na) (fun J => qpeAmp na φ (blockVal J A.nqb na) * A.trial (setBlock J A.nqb na 0)) := by
      funext J
      rw [d4, stages_phase]
      have : (W ^ leVal J A.nqb na) ((hads A.nqb na).op A.trial) = (hads A.nqb na).op ((W ^ leVal J A.nqb na) A.trial) :=
        (LinearMap.congr_fun (hads_comm (a := na) fun q hq => (d3 q hq).pow (leVal J A.nqb na)).eq _).symm
      rw [this, hWy, map_smul, Pi.smul_apply, hads_apply _ _ _ hsup, smul_eq_mul]
      ring
    rw [c1, c2, ← Module.End.mul_apply, (circuit_adjoint_op fun g hg => (hgs g hg).1).1, Module.End.one_apply]

end QF
